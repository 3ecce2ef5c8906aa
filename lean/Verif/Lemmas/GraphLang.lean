import Verif.Spec.GraphLang
import Verif.Props.GraphReplace
import Verif.Props.GraphEdit
import Mathlib.Tactic

/-!
# Helper lemmas: words read along the paths of a graph, and replacement of states
-/

namespace Verif
namespace Graph

open Verif.Spec Verif.Props

variable {F α : Type}

theorem reads_mono (g g' : Graph F) (lab lab' : ℕ → List α → Prop)
    (hk : ∀ a ∈ g.arcs, ∃ b ∈ g'.arcs, b.start = a.start ∧ b.stop = a.stop)
    (e s : ℕ) (w : List α) (hl : ∀ i w, lab i w → lab' i w) (h : Reads g lab e s w) :
    Reads g' lab' e s w := by
  induction h with
  | stop w hw => exact .stop w (hl _ _ hw)
  | step a w w' ha hw _ ih =>
    obtain ⟨b, hb, h1, h2⟩ := hk a ha
    rw [← h1]
    exact .step b w w' hb (h1 ▸ hl _ _ hw) (h2 ▸ ih)

theorem reads_congr (g : Graph F) (lab lab' : ℕ → List α → Prop) (e s : ℕ) (w : List α)
    (hl : ∀ i w, lab i w ↔ lab' i w) : Reads g lab e s w ↔ Reads g lab' e s w :=
  ⟨reads_mono g g lab lab' (fun a ha => ⟨a, ha, rfl, rfl⟩) e s w fun i w h => (hl i w).1 h,
   reads_mono g g lab' lab (fun a ha => ⟨a, ha, rfl, rfl⟩) e s w fun i w h => (hl i w).2 h⟩

/-- Only the states visited matter. -/
theorem reads_congr_on (g : Graph F) (lab lab' : ℕ → List α → Prop) (P : ℕ → Prop)
    (hP : ∀ a ∈ g.arcs, P a.start ∧ P a.stop) (hl : ∀ i, P i → ∀ w, lab i w → lab' i w)
    (e s : ℕ) (w : List α) (he : P e) (h : Reads g lab e s w) : Reads g lab' e s w := by
  induction h with
  | stop w hw => exact .stop w (hl _ he _ hw)
  | step a w w' ha hw _ ih => exact .step a w w' ha (hl _ (hP a ha).1 _ hw) ih

theorem reads_keys (g g' : Graph F) (lab : ℕ → List α → Prop) (hk : g.keys = g'.keys) (e s : ℕ)
    (w : List α) : Reads g lab e s w ↔ Reads g' lab e s w := by
  have key : ∀ g g' : Graph F, g.keys = g'.keys → ∀ a ∈ g.arcs, ∃ b ∈ g'.arcs,
      b.start = a.start ∧ b.stop = a.stop := by
    intro g g' hk a ha
    have : a.key ∈ g'.keys := hk ▸ List.mem_map.2 ⟨a, ha, rfl⟩
    obtain ⟨b, hb, hbk⟩ := List.mem_map.1 this
    exact ⟨b, hb, congrArg Prod.fst hbk, congrArg Prod.snd hbk⟩
  exact ⟨reads_mono g g' lab lab (key g g' hk) e s w fun i w h => h,
    reads_mono g' g lab lab (key g' g hk.symm) e s w fun i w h => h⟩

/-- What the replacement of a state needs. -/
structure Replaceable (g : Graph F) (old : ℕ) : Prop where
  inv : g.Inv
  below : ArcsBelow g
  mem : old ∈ g.ids
  noloop : ∀ x ∈ g.arcs, ¬ (x.start = old ∧ x.stop = old)

/-- A graph which can be put in place of a state. -/
structure UnitOK (sub : Graph F) (a b : ℕ) : Prop where
  inv : sub.Inv
  closed : ∀ x ∈ sub.arcs, x.start ∈ sub.ids ∧ x.stop ∈ sub.ids
  start : sub.startState = some a
  start_mem : a ∈ sub.ids
  stop : sub.endState = some b
  stop_mem : b ∈ sub.ids

/-- The words read in the graph after the replacement are those of the graph before, the replaced state
reading the words of the paths of the substituted graph. -/
theorem replace_reads (g sub : Graph F) (old a b : ℕ) (hg : Replaceable g old) (hs : UnitOK sub a b)
    (lab : ℕ → List α → Prop) (e s : ℕ) (he : e ≠ old) (he' : e < g.count) (hso : s ≠ old)
    (hs' : s < g.count) (w : List α) :
    Reads (g.replaceState old sub).1 lab e s w ↔
    Reads g (fun i w => if i = old then Reads sub (fun j => lab (copyId g sub j)) b a w else lab i w)
      e s w := by
  obtain ⟨-, -, hperm, -, -, -⟩ := C03_replace_state g sub old a b hg.inv hg.below hg.mem hg.noloop
    hs.inv hs.closed hs.start hs.start_mem hs.stop hs.stop_mem
  set g' := (g.replaceState old sub).1 with hg'
  set lab' : ℕ → List α → Prop :=
    fun i w => if i = old then Reads sub (fun j => lab (copyId g sub j)) b a w else lab i w with hlab'
  have hmem : ∀ x, x ∈ g'.arcs ↔
      (x ∈ g.arcs ∧ x.start ≠ old ∧ x.stop ≠ old) ∨
      (∃ y ∈ sub.arcs, x = ⟨copyId g sub y.start, copyId g sub y.stop, y.weight⟩) ∨
      (∃ y ∈ g.arcs, y.start = old ∧ x = ⟨copyId g sub b, y.stop, y.weight⟩) ∨
      (∃ y ∈ g.arcs, y.stop = old ∧ x = ⟨y.start, copyId g sub a, y.weight⟩) := by
    intro x
    rw [hperm.mem_iff]
    simp only [List.mem_append, List.mem_filter, List.mem_map, decide_eq_true_eq, or_assoc, and_assoc]
    constructor
    · rintro (h | ⟨y, hy, rfl⟩ | ⟨y, hy, hy', rfl⟩ | ⟨y, hy, hy', rfl⟩)
      · exact Or.inl h
      · exact Or.inr (Or.inl ⟨y, hy, rfl⟩)
      · exact Or.inr (Or.inr (Or.inl ⟨y, hy, hy', rfl⟩))
      · exact Or.inr (Or.inr (Or.inr ⟨y, hy, hy', rfl⟩))
    · rintro (h | ⟨y, hy, rfl⟩ | ⟨y, hy, hy', rfl⟩ | ⟨y, hy, hy', rfl⟩)
      · exact Or.inl h
      · exact Or.inr (Or.inl ⟨y, hy, rfl⟩)
      · exact Or.inr (Or.inr (Or.inl ⟨y, hy, hy', rfl⟩))
      · exact Or.inr (Or.inr (Or.inr ⟨y, hy, hy', rfl⟩))
  have hcpge : ∀ i, g.count ≤ copyId g sub i := fun i => Nat.le_add_right _ _
  have hold := hg.inv.ids_lt old hg.mem
  constructor
  · -- from the new graph to the old one
    have key : ∀ x v, Reads g' lab e x v →
        (x < g.count → x ≠ old → Reads g lab' e x v) ∧
        (∀ i ∈ sub.ids, x = copyId g sub i → ∃ w w', v = w ++ w' ∧
          Reads sub (fun j => lab (copyId g sub j)) b i w ∧
          ∃ y ∈ g.arcs, y.start = old ∧ Reads g lab' e y.stop w') := by
      intro x v h
      induction h with
      | stop v hv =>
        refine ⟨fun _ _ => .stop v ?_, fun i _ hi => ?_⟩
        · simp only [hlab', if_neg he]; exact hv
        · have := hcpge i; omega
      | step x v v' hx hv _ ih =>
        obtain ⟨ih1, ih2⟩ := ih
        rcases (hmem x).1 hx with ⟨hxg, h1, h2⟩ | ⟨y, hy, rfl⟩ | ⟨y, hy, hyo, rfl⟩ | ⟨y, hy, hyo, rfl⟩
        · refine ⟨fun _ _ => .step x v v' hxg ?_ (ih1 (hg.below x hxg).2 h2), fun i _ hi => ?_⟩
          · simp only [hlab', if_neg h1]; exact hv
          · have := hcpge i; have := (hg.below x hxg).1; omega
        · dsimp only at *
          refine ⟨fun hlt => ?_, fun i hi hie => ?_⟩
          · have := hcpge y.start; omega
          · have hiy : i = y.start := by
              have := (hs.closed y hy).1
              unfold copyId at hie
              exact ((List.idxOf_inj this).1 (Nat.add_left_cancel hie)).symm
            obtain ⟨w, w', rfl, h1, h2⟩ := ih2 y.stop (hs.closed y hy).2 rfl
            refine ⟨v ++ w, w', by rw [List.append_assoc], ?_, h2⟩
            rw [hiy]
            exact .step y v w hy hv h1
        · dsimp only at *
          refine ⟨fun hlt => ?_, fun i hi hie => ?_⟩
          · have := hcpge b; omega
          · have hib : i = b := by
              unfold copyId at hie
              exact ((List.idxOf_inj hs.stop_mem).1 (Nat.add_left_cancel hie)).symm
            have hyn : y.stop ≠ old := fun h => hg.noloop y hy ⟨hyo, h⟩
            refine ⟨v, v', rfl, ?_, y, hy, hyo, ih1 (hg.below y hy).2 hyn⟩
            rw [hib]
            exact .stop v hv
        · dsimp only at *
          have hyn : y.start ≠ old := fun h => hg.noloop y hy ⟨h, hyo⟩
          refine ⟨fun hlt _ => ?_, fun i hi hie => ?_⟩
          · obtain ⟨w, w', rfl, h1, z, hz, hzo, h2⟩ := ih2 a hs.start_mem rfl
            refine .step y v _ hy ?_ ?_
            · simp only [hlab', if_neg hyn]; exact hv
            · rw [hyo, ← hzo]
              refine .step z w w' hz ?_ h2
              simp only [hlab', if_pos hzo]
              exact h1
          · have := hcpge i; have := (hg.below y hy).1; omega
    exact fun h => (key s w h).1 hs' hso
  · -- from the old graph to the new one
    have hsub : ∀ (x t : ℕ) (u u' : List α) (wt : F), Reads sub (fun j => lab (copyId g sub j)) b x u →
        (⟨copyId g sub b, t, wt⟩ : Arc F) ∈ g'.arcs → Reads g' lab e t u' →
        Reads g' lab e (copyId g sub x) (u ++ u') := by
      intro x t u u' wt h ht hr
      induction h with
      | stop u hu => exact .step ⟨copyId g sub b, t, wt⟩ u u' ht hu hr
      | step y u v hy hu _ ih =>
        rw [List.append_assoc]
        exact .step (⟨copyId g sub y.start, copyId g sub y.stop, y.weight⟩ : Arc F) u _
          ((hmem _).2 (Or.inr (Or.inl ⟨y, hy, rfl⟩))) hu ih
    have key : ∀ x v, Reads g lab' e x v →
        Reads g' lab e (if x = old then copyId g sub a else x) v := by
      intro x v h
      induction h with
      | stop v hv =>
        rw [if_neg he]
        simp only [hlab', if_neg he] at hv
        exact .stop v hv
      | step x v v' hx hv _ ih =>
        by_cases hxo : x.start = old
        · rw [if_pos hxo]
          simp only [hlab', if_pos hxo] at hv
          have hxn : x.stop ≠ old := fun h => hg.noloop x hx ⟨hxo, h⟩
          rw [if_neg hxn] at ih
          exact hsub a x.stop v v' x.weight hv
            ((hmem _).2 (Or.inr (Or.inr (Or.inl ⟨x, hx, hxo, rfl⟩)))) ih
        · rw [if_neg hxo]
          simp only [hlab', if_neg hxo] at hv
          by_cases hxs : x.stop = old
          · rw [if_pos hxs] at ih
            exact .step (⟨x.start, copyId g sub a, x.weight⟩ : Arc F) v v'
              ((hmem _).2 (Or.inr (Or.inr (Or.inr ⟨x, hx, hxs, rfl⟩)))) hv ih
          · rw [if_neg hxs] at ih
            exact .step x v v' ((hmem _).2 (Or.inl ⟨hx, hxo, hxs⟩)) hv ih
    intro h
    have := key s w h
    rwa [if_neg hso] at this

/-- The properties kept by a replacement. -/
theorem replace_keeps (g sub : Graph F) (old a b : ℕ) (hg : Replaceable g old) (hs : UnitOK sub a b) :
    (g.replaceState old sub).2 = none ∧ (g.replaceState old sub).1.Inv
    ∧ ArcsBelow (g.replaceState old sub).1
    ∧ (g.replaceState old sub).1.count = g.count + sub.states.length
    ∧ (g.replaceState old sub).1.startState = g.startState
    ∧ (g.replaceState old sub).1.endState = g.endState
    ∧ (∀ o, o ≠ old → o < g.count → Replaceable g o → Replaceable (g.replaceState old sub).1 o)
    ∧ (∀ x ∈ (g.replaceState old sub).1.arcs, ∃ y, y ∈ g.arcs ++ sub.arcs ∧ x.weight = y.weight)
    ∧ ((∀ x ∈ g.arcs, x.start ∈ g.ids ∧ x.stop ∈ g.ids) →
        ∀ x ∈ (g.replaceState old sub).1.arcs, x.start ∈ (g.replaceState old sub).1.ids
          ∧ x.stop ∈ (g.replaceState old sub).1.ids) := by
  obtain ⟨h1, h2, hperm, h4, h5, h6⟩ := C03_replace_state g sub old a b hg.inv hg.below hg.mem hg.noloop
    hs.inv hs.closed hs.start hs.start_mem hs.stop hs.stop_mem
  have hinv := (replaceState_inv g old sub hg.inv).1
  set g' := (g.replaceState old sub).1 with hg'
  have hcpge : ∀ i, g.count ≤ copyId g sub i := fun i => Nat.le_add_right _ _
  have hcplt : ∀ i ∈ sub.ids, copyId g sub i < g.count + sub.states.length := by
    intro i hi
    have : sub.ids.idxOf i < sub.ids.length := List.idxOf_lt_length_of_mem hi
    have hl : sub.ids.length = sub.states.length := by simp [ids]
    unfold copyId; omega
  have hmem : ∀ x ∈ g'.arcs,
      (x ∈ g.arcs ∧ x.start ≠ old ∧ x.stop ≠ old) ∨
      (∃ y ∈ sub.arcs, x = ⟨copyId g sub y.start, copyId g sub y.stop, y.weight⟩) ∨
      (∃ y ∈ g.arcs, y.start = old ∧ x = ⟨copyId g sub b, y.stop, y.weight⟩) ∨
      (∃ y ∈ g.arcs, y.stop = old ∧ x = ⟨y.start, copyId g sub a, y.weight⟩) := by
    intro x hx
    rw [hperm.mem_iff] at hx
    simp only [List.mem_append, List.mem_filter, List.mem_map, decide_eq_true_eq, or_assoc,
      and_assoc] at hx
    rcases hx with h | ⟨y, hy, rfl⟩ | ⟨y, hy, hy', rfl⟩ | ⟨y, hy, hy', rfl⟩
    · exact Or.inl h
    · exact Or.inr (Or.inl ⟨y, hy, rfl⟩)
    · exact Or.inr (Or.inr (Or.inl ⟨y, hy, hy', rfl⟩))
    · exact Or.inr (Or.inr (Or.inr ⟨y, hy, hy', rfl⟩))
  have hbelow : ArcsBelow g' := by
    intro x hx
    rw [h4]
    rcases hmem x hx with ⟨h, _, _⟩ | ⟨y, hy, rfl⟩ | ⟨y, hy, _, rfl⟩ | ⟨y, hy, _, rfl⟩
    · have := hg.below x h; omega
    · exact ⟨hcplt _ (hs.closed y hy).1, hcplt _ (hs.closed y hy).2⟩
    · have := hg.below y hy; exact ⟨hcplt _ hs.stop_mem, by dsimp only; omega⟩
    · have := hg.below y hy; exact ⟨by dsimp only; omega, hcplt _ hs.start_mem⟩
  have hidold : ∀ o ∈ g.ids, o ≠ old → o ∈ g'.ids := by
    intro o ho hne
    unfold ids
    rw [h2, List.map_append, List.mem_append]
    left
    obtain ⟨t, ht, rfl⟩ := List.mem_map.1 ho
    exact List.mem_map.2 ⟨t, List.mem_filter.2 ⟨ht, by simpa using hne⟩, rfl⟩
  have hidnew : ∀ i ∈ sub.ids, copyId g sub i ∈ g'.ids := by
    intro i hi
    unfold ids
    rw [h2, List.map_append, List.mem_append]
    right
    have : sub.ids.idxOf i < sub.states.length := by
      have h := List.idxOf_lt_length_of_mem hi
      simpa [ids] using h
    refine List.mem_map.2 ⟨(g.count + sub.ids.idxOf i, (sub.states[sub.ids.idxOf i]).2), ?_, rfl⟩
    exact List.mem_mapIdx.2 ⟨sub.ids.idxOf i, this, rfl⟩
  refine ⟨h1, hinv, hbelow, h4, h5, h6, ?_, ?_, ?_⟩
  · intro o hne holt ho
    refine ⟨hinv, hbelow, hidold o ho.mem hne, ?_⟩
    intro x hx hxo
    rcases hmem x hx with ⟨h, _, _⟩ | ⟨y, hy, rfl⟩ | ⟨y, hy, _, rfl⟩ | ⟨y, hy, _, rfl⟩
    · exact ho.noloop x h hxo
    · have := hcpge y.start; dsimp only at hxo; omega
    · have := hcpge b; dsimp only at hxo; omega
    · have := hcpge a; dsimp only at hxo; omega
  · intro x hx
    rcases hmem x hx with ⟨h, _, _⟩ | ⟨y, hy, rfl⟩ | ⟨y, hy, _, rfl⟩ | ⟨y, hy, _, rfl⟩
    · exact ⟨x, List.mem_append_left _ h, rfl⟩
    · exact ⟨y, List.mem_append_right _ hy, rfl⟩
    · exact ⟨y, List.mem_append_left _ hy, rfl⟩
    · exact ⟨y, List.mem_append_left _ hy, rfl⟩
  · intro hcl x hx
    rcases hmem x hx with ⟨h, ha, hb⟩ | ⟨y, hy, rfl⟩ | ⟨y, hy, hyo, rfl⟩ | ⟨y, hy, hyo, rfl⟩
    · exact ⟨hidold _ (hcl x h).1 ha, hidold _ (hcl x h).2 hb⟩
    · exact ⟨hidnew _ (hs.closed y hy).1, hidnew _ (hs.closed y hy).2⟩
    · refine ⟨hidnew _ hs.stop_mem, hidold _ (hcl y hy).2 (fun h => hg.noloop y hy ⟨hyo, h⟩)⟩
    · refine ⟨hidold _ (hcl y hy).1 (fun h => hg.noloop y hy ⟨h, hyo⟩), hidnew _ hs.start_mem⟩

/-! ### A sequence of replacements -/

/-- Replacing several states one after the other; stops at the first error. -/
def replaceList : List (ℕ × Graph F) → Graph F → Graph F × Option Err
  | [], g => (g, none)
  | (old, sub) :: rest, g =>
    match g.replaceState old sub with
    | (g', some e) => (g', some e)
    | (g', none) => replaceList rest g'

/-- The labelling before the replacements: a state to be replaced reads the words of the paths of its
graph, whose states will be numbered from `c`. -/
def substLab : List (ℕ × Graph F) → ℕ → (ℕ → List α → Prop) → ℕ → List α → Prop
  | [], _, lab => lab
  | (old, sub) :: rest, c, lab => fun i w =>
    if i = old then ∃ a b, sub.startState = some a ∧ sub.endState = some b ∧
      Reads sub (fun j => lab (c + sub.ids.idxOf j)) b a w
    else substLab rest (c + sub.states.length) lab i w

theorem substLab_other (l : List (ℕ × Graph F)) (c : ℕ) (lab : ℕ → List α → Prop) (i : ℕ) (w : List α)
    (h : i ∉ l.map Prod.fst) : substLab l c lab i w ↔ lab i w := by
  induction l generalizing c with
  | nil => rfl
  | cons p l ih =>
    obtain ⟨old, sub⟩ := p
    simp only [List.map_cons, List.mem_cons, not_or] at h
    simp only [substLab]
    rw [if_neg h.1]
    exact ih _ h.2

theorem replaceList_reads (l : List (ℕ × Graph F)) (base : ℕ) (g : Graph F) (hb : base ≤ g.count)
    (hn : (l.map Prod.fst).Nodup) (hl : ∀ p ∈ l, p.1 < base ∧ Replaceable g p.1 ∧ ∃ a b, UnitOK p.2 a b)
    (hinv : g.Inv) (hab : ArcsBelow g)
    (lab : ℕ → List α → Prop) (e s : ℕ) (he : e ∉ l.map Prod.fst) (he' : e < base)
    (hs : s ∉ l.map Prod.fst) (hs' : s < base) :
    (replaceList l g).2 = none
    ∧ (replaceList l g).1.Inv ∧ ArcsBelow (replaceList l g).1
    ∧ (replaceList l g).1.startState = g.startState ∧ (replaceList l g).1.endState = g.endState
    ∧ (∀ x ∈ (replaceList l g).1.arcs, ∃ y, (y ∈ g.arcs ∨ ∃ p ∈ l, y ∈ p.2.arcs) ∧ x.weight = y.weight)
    ∧ ((∀ x ∈ g.arcs, x.start ∈ g.ids ∧ x.stop ∈ g.ids) →
        ∀ x ∈ (replaceList l g).1.arcs, x.start ∈ (replaceList l g).1.ids
          ∧ x.stop ∈ (replaceList l g).1.ids)
    ∧ ∀ w, Reads (replaceList l g).1 lab e s w ↔ Reads g (substLab l g.count lab) e s w := by
  induction l generalizing g with
  | nil =>
    exact ⟨rfl, hinv, hab, rfl, rfl, fun x hx => ⟨x, Or.inl hx, rfl⟩, fun h => h, fun w => Iff.rfl⟩
  | cons p l ih =>
    obtain ⟨old, sub⟩ := p
    rw [List.map_cons, List.nodup_cons] at hn
    simp only [List.map_cons, List.mem_cons, not_or] at he hs
    obtain ⟨hob, hrep, a, b, hunit⟩ := hl (old, sub) List.mem_cons_self
    dsimp only at hob hrep hunit
    obtain ⟨k1, k2, k3, k4, k5, k6, k7, k8, k9⟩ := replace_keeps g sub old a b hrep hunit
    have hR : replaceList ((old, sub) :: l) g = replaceList l (g.replaceState old sub).1 := by
      simp only [replaceList]
      generalize hr : g.replaceState old sub = r at *
      obtain ⟨g', e⟩ := r
      dsimp only at k1
      subst k1
      rfl
    rw [hR]
    obtain ⟨i1, i2, i3, i4, i5, i6, i7, i8⟩ := ih (g.replaceState old sub).1 (by omega) hn.2 (by
        intro p hp
        obtain ⟨q1, q2, q3⟩ := hl p (List.mem_cons_of_mem _ hp)
        refine ⟨q1, k7 p.1 ?_ (by omega) q2, q3⟩
        rintro rfl
        exact hn.1 (List.mem_map.2 ⟨p, hp, rfl⟩)) k2 k3 he.2 hs.2
    refine ⟨i1, i2, i3, i4.trans k5, i5.trans k6, ?_, fun h => i7 (k9 h), ?_⟩
    · intro x hx
      obtain ⟨y, hy, hw⟩ := i6 x hx
      rcases hy with hy | ⟨p, hp, hy⟩
      · obtain ⟨z, hz, hzw⟩ := k8 y hy
        rcases List.mem_append.1 hz with hz | hz
        · exact ⟨z, Or.inl hz, hw.trans hzw⟩
        · exact ⟨z, Or.inr ⟨(old, sub), List.mem_cons_self, hz⟩, hw.trans hzw⟩
      · exact ⟨y, Or.inr ⟨p, List.mem_cons_of_mem _ hp, hy⟩, hw⟩
    · intro w
      rw [i8 w, replace_reads g sub old a b hrep hunit _ e s he.1 (by omega) hs.1 (by omega)]
      apply reads_congr
      intro i w
      simp only [substLab]
      by_cases hi : i = old
      · rw [if_pos hi, if_pos hi, k4]
        constructor
        · intro h
          refine ⟨a, b, hunit.start, hunit.stop, ?_⟩
          refine (reads_congr sub _ _ b a w ?_).1 h
          intro j w
          rw [substLab_other]
          · rfl
          · intro hm
            obtain ⟨p, hp, hpe⟩ := List.mem_map.1 hm
            have := (hl p (List.mem_cons_of_mem _ hp)).1
            unfold copyId at hpe; omega
        · rintro ⟨a', b', ha', hb', h⟩
          rw [hunit.start] at ha'
          rw [hunit.stop] at hb'
          cases ha'; cases hb'
          refine (reads_congr sub _ _ b a w ?_).1 h
          intro j w
          rw [substLab_other]
          · rfl
          · intro hm
            obtain ⟨p, hp, hpe⟩ := List.mem_map.1 hm
            have := (hl p (List.mem_cons_of_mem _ hp)).1
            unfold copyId at hpe; omega
      · rw [if_neg hi, if_neg hi, k4]

/-! ### Emitted pdfs -/

theorem emitLab_mono (g g' : Graph F) (i j : ℕ) (h : ∀ p, (i, p) ∈ g.states ↔ (j, p) ∈ g'.states)
    (w : List ℕ) : emitLab g i w ↔ emitLab g' j w := by
  unfold emitLab
  simp only [h]

theorem replace_emit (g sub : Graph F) (old a b : ℕ) (hg : Replaceable g old) (hs : UnitOK sub a b) :
    (∀ i < g.count, i ≠ old → ∀ w, emitLab (g.replaceState old sub).1 i w ↔ emitLab g i w)
    ∧ (∀ j ∈ sub.ids, ∀ w, emitLab (g.replaceState old sub).1 (copyId g sub j) w ↔ emitLab sub j w) := by
  obtain ⟨-, h2, -, -, -, -⟩ := C03_replace_state g sub old a b hg.inv hg.below hg.mem hg.noloop
    hs.inv hs.closed hs.start hs.start_mem hs.stop hs.stop_mem
  constructor
  · intro i hi hne w
    apply emitLab_mono
    intro p
    rw [h2, List.mem_append, List.mem_filter, List.mem_mapIdx]
    constructor
    · rintro (h | ⟨k, hk, he⟩)
      · exact h.1
      · have := congrArg Prod.fst he
        dsimp only at this; omega
    · intro h
      exact Or.inl ⟨h, by simpa using hne⟩
  · intro j hj w
    apply emitLab_mono
    intro p
    have hlt : sub.ids.idxOf j < sub.states.length := by
      have h := List.idxOf_lt_length_of_mem hj
      simpa [ids] using h
    have hget : (sub.states[sub.ids.idxOf j]).1 = j := by
      have h1 : sub.ids[sub.ids.idxOf j]'(List.idxOf_lt_length_of_mem hj) = j := List.getElem_idxOf _
      exact (List.getElem_map Prod.fst).symm.trans h1
    rw [h2, List.mem_append, List.mem_filter, List.mem_mapIdx]
    constructor
    · rintro (h | ⟨k, hk, he⟩)
      · have := hg.inv.ids_lt _ (List.mem_map.2 ⟨_, h.1, rfl⟩)
        unfold copyId at this
        dsimp only at this; omega
      · have h1 := congrArg Prod.fst he
        have h2 := congrArg Prod.snd he
        dsimp only at h1 h2
        have hk' : k = sub.ids.idxOf j := by unfold copyId at h1; omega
        subst hk'
        have : sub.states[sub.ids.idxOf j] = (j, p) := Prod.ext hget h2
        rw [← this]
        exact List.getElem_mem _
    · intro h
      refine Or.inr ⟨sub.ids.idxOf j, hlt, ?_⟩
      refine Prod.ext rfl ?_
      have hn := hs.inv.ids_nodup
      have hmem : sub.states[sub.ids.idxOf j] ∈ sub.states := List.getElem_mem _
      have := List.inj_on_of_nodup_map (f := Prod.fst) hn hmem h hget
      dsimp only
      rw [this]

/-- The labelling before the replacements: a state to be replaced reads what its graph accepts. -/
def langLab : List (ℕ × Graph F) → (ℕ → List ℕ → Prop) → ℕ → List ℕ → Prop
  | [], lab => lab
  | (old, sub) :: rest, lab => fun i w => if i = old then Accepts sub w else langLab rest lab i w

theorem langLab_congr (l : List (ℕ × Graph F)) (lab lab' : ℕ → List ℕ → Prop) (i : ℕ) (w : List ℕ)
    (h : i ∉ l.map Prod.fst → (lab i w ↔ lab' i w)) : langLab l lab i w ↔ langLab l lab' i w := by
  induction l with
  | nil => exact h (by simp)
  | cons p l ih =>
    obtain ⟨old, sub⟩ := p
    simp only [langLab]
    by_cases hi : i = old
    · rw [if_pos hi, if_pos hi]
    · rw [if_neg hi, if_neg hi]
      exact ih fun hl => h (by simp [hi, hl])

theorem langLab_other (l : List (ℕ × Graph F)) (lab : ℕ → List ℕ → Prop) (i : ℕ) (w : List ℕ)
    (h : i ∉ l.map Prod.fst) : langLab l lab i w ↔ lab i w := by
  induction l with
  | nil => rfl
  | cons p l ih =>
    obtain ⟨old, sub⟩ := p
    simp only [List.map_cons, List.mem_cons, not_or] at h
    simp only [langLab]
    rw [if_neg h.1]
    exact ih h.2

theorem replaceList_lang (l : List (ℕ × Graph F)) (base : ℕ) (g : Graph F) (hb : base ≤ g.count)
    (hn : (l.map Prod.fst).Nodup) (hl : ∀ p ∈ l, p.1 < base ∧ Replaceable g p.1 ∧ ∃ a b, UnitOK p.2 a b)
    (hinv : g.Inv) (hab : ArcsBelow g) (e s : ℕ) (he : e ∉ l.map Prod.fst) (he' : e < base)
    (hs : s ∉ l.map Prod.fst) (hs' : s < base) (w : List ℕ) :
    Reads (replaceList l g).1 (emitLab (replaceList l g).1) e s w
      ↔ Reads g (langLab l (emitLab g)) e s w := by
  induction l generalizing g with
  | nil => exact Iff.rfl
  | cons p l ih =>
    obtain ⟨old, sub⟩ := p
    rw [List.map_cons, List.nodup_cons] at hn
    simp only [List.map_cons, List.mem_cons, not_or] at he hs
    obtain ⟨hob, hrep, a, b, hunit⟩ := hl (old, sub) List.mem_cons_self
    dsimp only at hob hrep hunit
    obtain ⟨k1, k2, k3, k4, k5, k6, k7, k8, k9⟩ := replace_keeps g sub old a b hrep hunit
    obtain ⟨em1, em2⟩ := replace_emit g sub old a b hrep hunit
    have hR : replaceList ((old, sub) :: l) g = replaceList l (g.replaceState old sub).1 := by
      simp only [replaceList]
      generalize hr : g.replaceState old sub = r at *
      obtain ⟨g', e⟩ := r
      dsimp only at k1
      subst k1
      rfl
    rw [hR, ih (g.replaceState old sub).1 (by omega) hn.2 (by
        intro p hp
        obtain ⟨q1, q2, q3⟩ := hl p (List.mem_cons_of_mem _ hp)
        refine ⟨q1, k7 p.1 ?_ (by omega) q2, q3⟩
        rintro rfl
        exact hn.1 (List.mem_map.2 ⟨p, hp, rfl⟩)) k2 k3 he.2 hs.2,
      replace_reads g sub old a b hrep hunit _ e s he.1 (by omega) hs.1 (by omega)]
    have hcopy : ∀ j ∈ sub.ids, ∀ w, langLab l (emitLab (g.replaceState old sub).1) (copyId g sub j) w
        ↔ emitLab sub j w := by
      intro j hj w
      rw [langLab_other, em2 j hj]
      intro hm
      obtain ⟨p, hp, hpe⟩ := List.mem_map.1 hm
      have := (hl p (List.mem_cons_of_mem _ hp)).1
      unfold copyId at hpe; omega
    have hacc : ∀ w, Reads sub (fun j => langLab l (emitLab (g.replaceState old sub).1)
        (copyId g sub j)) b a w ↔ Accepts sub w := by
      intro w
      constructor
      · intro h
        refine ⟨a, b, hunit.start, hunit.stop, ?_⟩
        exact reads_congr_on sub _ _ (· ∈ sub.ids) hunit.closed (fun j hj w => (hcopy j hj w).1) b a w
          hunit.stop_mem h
      · rintro ⟨a', b', ha', hb', h⟩
        rw [hunit.start] at ha'
        rw [hunit.stop] at hb'
        cases ha'; cases hb'
        exact reads_congr_on sub _ _ (· ∈ sub.ids) hunit.closed (fun j hj w => (hcopy j hj w).2) b a w
          hunit.stop_mem h
    have hlab : ∀ i < g.count, ∀ w,
        (if i = old then Reads sub (fun j => langLab l (emitLab (g.replaceState old sub).1)
          (copyId g sub j)) b a w else langLab l (emitLab (g.replaceState old sub).1) i w)
        ↔ langLab ((old, sub) :: l) (emitLab g) i w := by
      intro i hi w
      simp only [langLab]
      by_cases hio : i = old
      · rw [if_pos hio, if_pos hio, hacc]
      · rw [if_neg hio, if_neg hio]
        exact langLab_congr l _ _ i w fun _ => em1 i hi hio w
    constructor
    · exact reads_congr_on g _ _ (· < g.count) hab (fun i hi w => (hlab i hi w).1) e s w (by omega)
    · exact reads_congr_on g _ _ (· < g.count) hab (fun i hi w => (hlab i hi w).2) e s w (by omega)

theorem wellFormed_unit [LT F] [Zero F] (g : Graph F) (h : WellFormed g) : ∃ a b, UnitOK g a b := by
  obtain ⟨a, ha, ha'⟩ := h.start_mem
  obtain ⟨b, hb, hb'⟩ := h.end_mem
  refine ⟨a, b, ⟨⟨h.ids_nodup, ?_, ?_⟩, h.arcs_closed, ha, ha', hb, hb'⟩⟩
  · intro i hi
    obtain ⟨t, ht, rfl⟩ := List.mem_map.1 hi
    exact h.ids_lt t ht
  · exact List.pairwise_map.2 h.arcs_unique

theorem normalize_pos [Field F] [LinearOrder F] [IsStrictOrderedRing F] (g : Graph F) (hg : g.Inv)
    (hpos : ∀ a ∈ g.arcs, 0 < a.weight) : g.normalize.2 = none := by
  refine (C02_normalize_divides g hg.ids_nodup ?_).1
  rintro s - ⟨a, ha, hs⟩
  unfold outSum
  apply ne_of_gt
  apply List.sum_pos
  · intro x hx
    obtain ⟨y, hy, rfl⟩ := List.mem_map.1 hx
    exact hpos y (List.mem_filter.1 hy).1
  · intro h
    have : a ∈ g.arcs.filter (fun a => a.start = s) := List.mem_filter.2 ⟨ha, by simpa using hs⟩
    rw [List.map_eq_nil_iff.1 h] at this
    cases this

theorem normalize_lang [Field F] [DecidableEq F] (g : Graph F) :
    g.normalize.1.keys = g.keys ∧ g.normalize.1.states = g.states
    ∧ g.normalize.1.startState = g.startState ∧ g.normalize.1.endState = g.endState := by
  obtain ⟨hc, hs, hk, h1, h2⟩ := normalizeLoop_frame g.ids g
  exact ⟨hk, hs, h1, h2⟩

end Graph
end Verif
