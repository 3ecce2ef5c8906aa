import Verif.Lemmas.GraphLang
import Verif.Lemmas.Pipeline

/-!
# Helper lemmas: the linear graph of a transcription
-/

namespace Verif.Pipeline

open Verif Verif.Spec Verif.Graph Verif.Props

variable {F α : Type}

theorem linearStates_eq [One F] (n k : ℕ) (g : Graph F) (l : List ℕ) (hc : g.count = k + 1)
    (hs : g.states = (List.range (k + 1)).map fun i => (i, none))
    (ha : g.arcs = (List.range k).map fun i => ⟨i, i + 1, 1⟩) :
    (linearStates n (g, k, l)).2.1 = k + n
    ∧ (linearStates n (g, k, l)).2.2 = l ++ List.range' (k + 1) n
    ∧ (linearStates n (g, k, l)).1.count = k + n + 1
    ∧ (linearStates n (g, k, l)).1.states = (List.range (k + n + 1)).map (fun i => (i, none))
    ∧ (linearStates n (g, k, l)).1.arcs = (List.range (k + n)).map (fun i => ⟨i, i + 1, 1⟩)
    ∧ (linearStates n (g, k, l)).1.startState = g.startState := by
  induction n generalizing g k l with
  | zero => exact ⟨rfl, by simp [linearStates], hc, hs, ha, rfl⟩
  | succ n ih =>
    simp only [linearStates]
    have hk : (k, k + 1) ∉ (g.addState none).1.keys := by
      unfold keys
      change (k, k + 1) ∉ g.arcs.map Arc.key
      rw [ha]
      simp [Arc.key]
    have h2 : (g.addState none).2 = k + 1 := hc
    rw [h2, addArc_eq, if_neg hk]
    obtain ⟨i1, i2, i3, i4, i5, i6⟩ := ih (k + 1)
      ({ (g.addState none).1 with arcs := (g.addState none).1.arcs ++ [⟨k, k + 1, 1⟩] })
      (l ++ [k + 1]) (by change g.count + 1 = _; omega)
      (by change g.states ++ [(g.count, none)] = _
          rw [hs, hc, List.range_succ (n := k + 1), List.map_append]; rfl)
      (by change g.arcs ++ _ = _
          rw [ha, List.range_succ (n := k), List.map_append]; rfl)
    refine ⟨by rw [i1]; omega, ?_, by rw [i3]; omega, ?_, ?_, i6⟩
    · rw [i2, List.append_assoc, List.range'_succ]; rfl
    · rw [i4, show k + 1 + n + 1 = k + (n + 1) + 1 by omega]
    · rw [i5, show k + 1 + n = k + (n + 1) by omega]

theorem linearGraph_eq [One F] (n : ℕ) :
    (linearGraph n : Graph F × List ℕ).2 = List.range' 1 n
    ∧ (linearGraph n : Graph F × List ℕ).1.count = n + 2
    ∧ (linearGraph n : Graph F × List ℕ).1.states = (List.range (n + 2)).map (fun i => (i, none))
    ∧ (linearGraph n : Graph F × List ℕ).1.arcs = (List.range (n + 1)).map (fun i => ⟨i, i + 1, 1⟩)
    ∧ (linearGraph n : Graph F × List ℕ).1.startState = some 0
    ∧ (linearGraph n : Graph F × List ℕ).1.endState = some (n + 1) := by
  obtain ⟨i1, i2, i3, i4, i5, i6⟩ := linearStates_eq (F := F) n 0
    { ((Graph.empty : Graph F).addState none).1 with startState := some 0 } [] rfl rfl rfl
  simp only [linearGraph]
  have h0 : ((Graph.empty : Graph F).addState none).2 = 0 := rfl
  rw [h0]
  generalize linearStates n ({ ((Graph.empty : Graph F).addState none).1 with startState := some 0 },
    0, []) = r at *
  obtain ⟨g, k, l⟩ := r
  dsimp only at *
  simp only [Nat.zero_add] at *
  have hk : (k, g.count) ∉ (g.addState none).1.keys := by
    unfold keys
    change (k, g.count) ∉ g.arcs.map Arc.key
    rw [i5, i1]
    simp [Arc.key]
  have h2 : (g.addState none).2 = g.count := rfl
  rw [h2, addArc_eq, if_neg hk]
  refine ⟨i2, by change g.count + 1 = _; omega, ?_, ?_, i6, by rw [i3]⟩
  · change g.states ++ [(g.count, none)] = _
    rw [i4, i3, List.range_succ (n := n + 1), List.map_append]; rfl
  · change g.arcs ++ [⟨k, g.count, 1⟩] = _
    rw [i5, i3, i1, List.range_succ (n := n), List.map_append]; rfl

theorem linearGraph_arcs [One F] (n : ℕ) (a : Arc F) :
    a ∈ (linearGraph n : Graph F × List ℕ).1.arcs ↔ a.start ≤ n ∧ a.stop = a.start + 1 ∧ a.weight = 1 := by
  rw [(linearGraph_eq n).2.2.2.1, List.mem_map]
  constructor
  · rintro ⟨i, hi, rfl⟩
    have := List.mem_range.1 hi
    exact ⟨by dsimp only; omega, rfl, rfl⟩
  · rintro ⟨h1, h2, h3⟩
    refine ⟨a.start, List.mem_range.2 (by omega), ?_⟩
    obtain ⟨s, e, w⟩ := a
    dsimp only at *
    rw [h2, h3]

theorem linearGraph_good [One F] (n : ℕ) :
    (linearGraph n : Graph F × List ℕ).1.Inv ∧ ArcsBelow (linearGraph n : Graph F × List ℕ).1
    ∧ (linearGraph n : Graph F × List ℕ).1.ids = List.range (n + 2)
    ∧ ∀ a ∈ (linearGraph n : Graph F × List ℕ).1.arcs, a.start ≠ a.stop := by
  obtain ⟨i1, i2, i3, i4, i5, i6⟩ := linearGraph_eq (F := F) n
  have hid : (linearGraph n : Graph F × List ℕ).1.ids = List.range (n + 2) := by
    unfold ids
    rw [i3, List.map_map]
    exact List.map_id _
  refine ⟨⟨hid ▸ List.nodup_range, ?_, ?_⟩, ?_, hid, ?_⟩
  · intro i hi
    rw [hid] at hi
    rw [i2]; exact List.mem_range.1 hi
  · unfold keys
    rw [i4, List.map_map]
    refine List.Nodup.map ?_ List.nodup_range
    intro x y hxy
    exact congrArg Prod.fst hxy
  · intro a ha
    obtain ⟨h1, h2, h3⟩ := (linearGraph_arcs n a).1 ha
    rw [i2]; omega
  · intro a ha
    obtain ⟨h1, h2, h3⟩ := (linearGraph_arcs n a).1 ha
    omega

/-- Words read by `m + 1` consecutive states from `k`. -/
def LinWords (lab : ℕ → List α → Prop) : ℕ → ℕ → List α → Prop
  | k, 0, w => lab k w
  | k, m + 1, w => ∃ u v, lab k u ∧ LinWords lab (k + 1) m v ∧ w = u ++ v

theorem linWords_congr (lab lab' : ℕ → List α → Prop) (k m : ℕ) (w : List α)
    (h : ∀ i w, k ≤ i → (lab i w ↔ lab' i w)) : LinWords lab k m w ↔ LinWords lab' k m w := by
  induction m generalizing k w with
  | zero => exact h k w le_rfl
  | succ m ih =>
    simp only [LinWords]
    constructor
    · rintro ⟨u, v, h1, h2, h3⟩
      exact ⟨u, v, (h k u le_rfl).1 h1, (ih (k + 1) v fun i w hi => h i w (by omega)).1 h2, h3⟩
    · rintro ⟨u, v, h1, h2, h3⟩
      exact ⟨u, v, (h k u le_rfl).2 h1, (ih (k + 1) v fun i w hi => h i w (by omega)).2 h2, h3⟩

theorem linearGraph_reads [One F] (n : ℕ) (lab : ℕ → List α → Prop) (k m : ℕ) (hk : k + m = n + 1)
    (w : List α) :
    Reads (linearGraph n : Graph F × List ℕ).1 lab (n + 1) k w ↔ LinWords lab k m w := by
  induction m generalizing k w with
  | zero =>
    have hk : k = n + 1 := by omega
    simp only [LinWords]
    constructor
    · intro h
      generalize hx : k = x at h
      cases h with
      | stop w hw => exact hw
      | step a w w' ha _ _ =>
        have := ((linearGraph_arcs n a).1 ha).1
        omega
    · intro h
      subst hk
      exact .stop w h
  | succ m ih =>
    simp only [LinWords]
    constructor
    · intro h
      generalize hx : k = x at h
      cases h with
      | stop w hw => omega
      | step a u v ha hu hv =>
        obtain ⟨h1, h2, h3⟩ := (linearGraph_arcs n a).1 ha
        refine ⟨u, v, hu, ?_, rfl⟩
        rw [h2] at hv
        exact (ih (a.start + 1) (by omega) v).1 hv
    · rintro ⟨u, v, hu, hv, rfl⟩
      exact .step (⟨k, k + 1, 1⟩ : Arc F) u v ((linearGraph_arcs n _).2 ⟨by dsimp only; omega, rfl, rfl⟩) hu
        ((ih (k + 1) (by omega) v).2 hv)

/-- `replaceSeq` looks the graphs up and replaces. -/
theorem replaceSeq_eq (d : List (String × Graph F)) (l : List (ℕ × String)) (subs : List (Graph F))
    (h : List.Forall₂ (fun p g => dictGet d p.2 = .ok g) l subs) (g : Graph F) :
    replaceSeq d l g = match replaceList ((l.map Prod.fst).zip subs) g with
      | (_, some e) => .error e
      | (g', none) => .ok g' := by
  induction h generalizing g with
  | nil => rfl
  | @cons p sub l subs hp _ ih =>
    obtain ⟨s, u⟩ := p
    dsimp only at hp
    simp only [replaceSeq, hp, List.map_cons, List.zip_cons_cons, replaceList]
    generalize g.replaceState s sub = r
    obtain ⟨g', e⟩ := r
    cases e with
    | some e => rfl
    | none => exact ih g'

/-- The first missing phone is a `KeyError`. -/
theorem replaceSeq_keyError (d : List (String × Graph F)) (l1 l2 : List (ℕ × String))
    (subs : List (Graph F)) (h : List.Forall₂ (fun p g => dictGet d p.2 = .ok g) l1 subs) (g : Graph F)
    (hok : (replaceList ((l1.map Prod.fst).zip subs) g).2 = none) (s : ℕ) (u : String)
    (hu : u ∉ d.map Prod.fst) :
    replaceSeq d (l1 ++ (s, u) :: l2) g = .error .keyError := by
  induction h generalizing g with
  | nil => simp only [List.nil_append, replaceSeq, dictGet_error d u hu]
  | @cons p sub l subs hp _ ih =>
    obtain ⟨t, v⟩ := p
    dsimp only at hp
    simp only [replaceSeq, hp, List.map_cons, List.zip_cons_cons, replaceList, List.cons_append] at hok ⊢
    generalize g.replaceState t sub = r at hok ⊢
    obtain ⟨g', e⟩ := r
    cases e with
    | some e => cases hok
    | none => exact ih g' hok

theorem reads_map {β : Type} (g : Graph F) (lab : ℕ → List α → Prop) (f : α → β)
    (lab' : ℕ → List β → Prop) (h : ∀ i w, lab' i w ↔ ∃ v, lab i v ∧ w = v.map f) (e s : ℕ) (w : List β) :
    Reads g lab' e s w ↔ ∃ v, Reads g lab e s v ∧ w = v.map f := by
  constructor
  · intro hr
    induction hr with
    | stop w hw =>
      obtain ⟨v, hv, rfl⟩ := (h _ _).1 hw
      exact ⟨v, .stop v hv, rfl⟩
    | step a w w' ha hw _ ih =>
      obtain ⟨v, hv, rfl⟩ := (h _ _).1 hw
      obtain ⟨v', hv', rfl⟩ := ih
      exact ⟨v ++ v', .step a v v' ha hv hv', by rw [List.map_append]⟩
  · rintro ⟨v, hr, rfl⟩
    induction hr with
    | stop v hv => exact .stop _ ((h _ _).2 ⟨v, hv, rfl⟩)
    | step a v v' ha hv _ ih =>
      rw [List.map_append]
      exact .step a _ _ ha ((h _ _).2 ⟨v, hv, rfl⟩) ih

theorem linWords_lang (subs : List (Graph F)) (k : ℕ) (lab : ℕ → List ℕ → Prop) (w : List ℕ) :
    LinWords (langLab ((List.range' k subs.length).zip subs) lab) k subs.length w
    ↔ ∃ ws wE, List.Forall₂ (fun g w => Accepts g w) subs ws ∧ lab (k + subs.length) wE
      ∧ w = ws.flatten ++ wE := by
  induction subs generalizing k w with
  | nil =>
    simp only [List.length_nil, LinWords, List.range'_zero, List.zip_nil_right, langLab, Nat.add_zero]
    constructor
    · intro h; exact ⟨[], w, .nil, h, rfl⟩
    · rintro ⟨ws, wE, h1, h2, rfl⟩
      cases h1
      exact h2
  | cons sub subs ih =>
    simp only [List.length_cons, LinWords, List.range'_succ, List.zip_cons_cons]
    have hcong : ∀ v, LinWords (langLab ((k, sub) :: (List.range' (k + 1) subs.length).zip subs) lab)
        (k + 1) subs.length v
        ↔ LinWords (langLab ((List.range' (k + 1) subs.length).zip subs) lab) (k + 1) subs.length v := by
      intro v
      apply linWords_congr
      intro i w hi
      simp only [langLab]
      rw [if_neg (by omega)]
    have hk : ∀ u, langLab ((k, sub) :: (List.range' (k + 1) subs.length).zip subs) lab k u
        ↔ Accepts sub u := by
      intro u
      simp only [langLab, if_true]
    constructor
    · rintro ⟨u, v, h1, h2, rfl⟩
      rw [hcong, ih] at h2
      obtain ⟨ws, wE, h2, h3, rfl⟩ := h2
      refine ⟨u :: ws, wE, .cons ((hk u).1 h1) h2, ?_, by rw [List.flatten_cons, List.append_assoc]⟩
      rw [show k + (subs.length + 1) = k + 1 + subs.length by omega]
      exact h3
    · rintro ⟨ws, wE, h1, h2, rfl⟩
      cases h1 with
      | @cons _ u _ ws h1 h3 =>
        refine ⟨u, ws.flatten ++ wE, (hk u).2 h1, ?_, by rw [List.flatten_cons, List.append_assoc]⟩
        rw [hcong, ih]
        refine ⟨ws, wE, h3, ?_, rfl⟩
        rw [show k + 1 + subs.length = k + (subs.length + 1) by omega]
        exact h2

/-- The words of the segments of a path: every segment is read in its graph, whose states are numbered
from `c` on. -/
def SegWords (lab : ℕ → List α → Prop) : ℕ → List (Graph F) → List α → Prop
  | _, [], w => w = []
  | c, sub :: subs, w => ∃ u v, (∃ a b, sub.startState = some a ∧ sub.endState = some b ∧
      Reads sub (fun j => lab (c + sub.ids.idxOf j)) b a u)
      ∧ SegWords lab (c + sub.states.length) subs v ∧ w = u ++ v

theorem linWords_seg (subs : List (Graph F)) (k c : ℕ) (lab : ℕ → List α → Prop) (w : List α) :
    LinWords (substLab ((List.range' k subs.length).zip subs) c lab) k subs.length w
    ↔ ∃ u wE, SegWords lab c subs u ∧ lab (k + subs.length) wE ∧ w = u ++ wE := by
  induction subs generalizing k c w with
  | nil =>
    simp only [List.length_nil, LinWords, List.range'_zero, List.zip_nil_right, substLab, Nat.add_zero]
    constructor
    · intro h; exact ⟨[], w, rfl, h, rfl⟩
    · rintro ⟨u, wE, rfl, h2, rfl⟩
      exact h2
  | cons sub subs ih =>
    simp only [List.length_cons, LinWords, List.range'_succ, List.zip_cons_cons]
    have hcong : ∀ v, LinWords (substLab ((k, sub) :: (List.range' (k + 1) subs.length).zip subs) c lab)
        (k + 1) subs.length v
        ↔ LinWords (substLab ((List.range' (k + 1) subs.length).zip subs) (c + sub.states.length) lab)
          (k + 1) subs.length v := by
      intro v
      apply linWords_congr
      intro i w hi
      simp only [substLab]
      rw [if_neg (by omega)]
    have hk : ∀ u, substLab ((k, sub) :: (List.range' (k + 1) subs.length).zip subs) c lab k u
        ↔ ∃ a b, sub.startState = some a ∧ sub.endState = some b ∧
          Reads sub (fun j => lab (c + sub.ids.idxOf j)) b a u := by
      intro u
      simp only [substLab, if_true]
    constructor
    · rintro ⟨u, v, h1, h2, rfl⟩
      rw [hcong, ih] at h2
      obtain ⟨v', wE, h2, h3, rfl⟩ := h2
      refine ⟨u ++ v', wE, ⟨u, v', (hk u).1 h1, h2, rfl⟩, ?_, by rw [List.append_assoc]⟩
      rw [show k + (subs.length + 1) = k + 1 + subs.length by omega]
      exact h3
    · rintro ⟨_, wE, ⟨u, v, h1, h2, rfl⟩, h3, rfl⟩
      refine ⟨u, v ++ wE, (hk u).2 h1, ?_, by rw [List.append_assoc]⟩
      rw [hcong, ih]
      refine ⟨v, wE, h2, ?_, rfl⟩
      rw [show k + 1 + subs.length = k + (subs.length + 1) by omega]
      exact h3

end Verif.Pipeline
