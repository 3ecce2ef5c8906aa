import Verif.Model.Pipeline
import Verif.Lemmas.GraphCompile
import Verif.Lemmas.GraphReplace
import Mathlib.Tactic

/-!
# Helper lemmas on the commands building the graphs
-/

namespace Verif
namespace Graph

variable {F : Type}

theorem copyArcs_frame (m : List (ℕ × ℕ)) (as : List (Arc F)) (g : Graph F) :
    (copyArcs m as g).1.states = g.states ∧ (copyArcs m as g).1.count = g.count
    ∧ (copyArcs m as g).1.startState = g.startState ∧ (copyArcs m as g).1.endState = g.endState := by
  induction as generalizing g with
  | nil => exact ⟨rfl, rfl, rfl, rfl⟩
  | cons a as ih =>
    simp only [copyArcs]
    split
    · rename_i s e _ _
      have h := ih (g.addArc s e a.weight)
      rw [addArc_eq] at h ⊢
      split at h <;> simpa [*] using h
    · exact ⟨rfl, rfl, rfl, rfl⟩

theorem addArcs_frame (l : List (Arc F)) (g : Graph F) :
    (g.addArcs l).states = g.states ∧ (g.addArcs l).count = g.count
    ∧ (g.addArcs l).startState = g.startState ∧ (g.addArcs l).endState = g.endState := by
  induction l generalizing g with
  | nil => exact ⟨rfl, rfl, rfl, rfl⟩
  | cons a l ih =>
    have h := ih (g.addArc a.start a.stop a.weight)
    have h' : g.addArcs (a :: l) = (g.addArc a.start a.stop a.weight).addArcs l := rfl
    rw [h']
    have h2 : (g.addArc a.start a.stop a.weight).states = g.states
        ∧ (g.addArc a.start a.stop a.weight).count = g.count
        ∧ (g.addArc a.start a.stop a.weight).startState = g.startState
        ∧ (g.addArc a.start a.stop a.weight).endState = g.endState := by
      rw [addArc_eq]; split <;> exact ⟨rfl, rfl, rfl, rfl⟩
    exact ⟨h.1.trans h2.1, h.2.1.trans h2.2.1, h.2.2.1.trans h2.2.2.1, h.2.2.2.trans h2.2.2.2⟩

theorem addArcs_keys (l : List (Arc F)) (g : Graph F) :
    (∀ k ∈ g.keys, k ∈ (g.addArcs l).keys) ∧ ∀ a ∈ l, a.key ∈ (g.addArcs l).keys := by
  induction l generalizing g with
  | nil => exact ⟨fun k h => h, by simp⟩
  | cons a l ih =>
    have h := ih (g.addArc a.start a.stop a.weight)
    have hk : (∀ k ∈ g.keys, k ∈ (g.addArc a.start a.stop a.weight).keys) ∧
        a.key ∈ (g.addArc a.start a.stop a.weight).keys := by
      rw [addArc_eq]
      split
      · rename_i hm; exact ⟨fun k h => h, hm⟩
      · refine ⟨fun k hk => ?_, ?_⟩
        · simp only [keys, List.map_append, List.mem_append]; exact Or.inl hk
        · simp [keys]
    refine ⟨fun k hkk => h.1 k (hk.1 k hkk), fun b hb => ?_⟩
    rcases List.mem_cons.1 hb with rfl | hb
    · exact h.1 _ hk.2
    · exact h.2 b hb

theorem removeArcs_frame (l : List (Arc F)) (g : Graph F) :
    (removeArcs l g).1.states = g.states ∧ (removeArcs l g).1.count = g.count
    ∧ (removeArcs l g).1.startState = g.startState ∧ (removeArcs l g).1.endState = g.endState := by
  induction l generalizing g with
  | nil => exact ⟨rfl, rfl, rfl, rfl⟩
  | cons a l ih =>
    simp only [removeArcs]
    split
    · exact ih _
    · exact ⟨rfl, rfl, rfl, rfl⟩

theorem copyArcs_ok_mem (m : List (ℕ × ℕ)) (as : List (Arc F)) (g : Graph F)
    (h : (copyArcs m as g).2 = none) :
    ∀ a ∈ as, m.lookup a.start ≠ none ∧ m.lookup a.stop ≠ none := by
  induction as generalizing g with
  | nil => simp
  | cons a as ih =>
    simp only [copyArcs] at h
    split at h
    · rename_i s e hs he
      intro b hb
      rcases List.mem_cons.1 hb with rfl | hb
      · simp only [newId] at hs he; rw [hs, he]; simp
      · exact ih _ h b hb
    · cases h

/-- What a successful replacement does to the states, without any hypothesis. -/
theorem replaceState_ok (g : Graph F) (old : ℕ) (sub : Graph F)
    (h : (g.replaceState old sub).2 = none) :
    (g.replaceState old sub).1.states
      = (g.states ++ sub.states.mapIdx (fun k s => (g.count + k, s.2))).filter (fun s => s.1 ≠ old)
    ∧ (g.replaceState old sub).1.count = g.count + sub.states.length
    ∧ (∀ a ∈ sub.arcs, a.start ∈ sub.ids ∧ a.stop ∈ sub.ids) := by
  have hlook := copyStates_lookup sub.states g
  obtain ⟨hcs, -, -, -⟩ := copyStates_states sub.states g
  have hcc := copyStates_count sub.states g
  have hcf := copyArcs_frame (g.copyStates sub.states).2 sub.arcs (g.copyStates sub.states).1
  have hcm := copyArcs_ok_mem (g.copyStates sub.states).2 sub.arcs (g.copyStates sub.states).1
  unfold replaceState at h ⊢
  dsimp only at h ⊢
  generalize hr : copyArcs (g.copyStates sub.states).2 sub.arcs (g.copyStates sub.states).1 = r at *
  obtain ⟨g2, e⟩ := r
  cases e with
  | some e => cases h
  | none =>
    dsimp only at h hcf hcm ⊢
    generalize hro : redirectOut _ _ = ro at *
    cases ro with
    | error e => cases h
    | ok newOut =>
      dsimp only at h ⊢
      generalize hri : redirectIn _ _ = ri at *
      cases ri with
      | error e => cases h
      | ok newIn =>
        dsimp only at h ⊢
        have hrf := removeArcs_frame (g2.arcsFrom (some old) ++ g2.arcsTo (some old))
          (g2.addArcs (newOut ++ newIn))
        have haf := addArcs_frame (newOut ++ newIn) g2
        generalize removeArcs _ _ = rm at *
        obtain ⟨g3, e⟩ := rm
        cases e with
        | some e => cases h
        | none =>
          dsimp only at h hrf ⊢
          by_cases hin : old ∈ g3.ids
          · rw [if_pos hin]
            dsimp only
            refine ⟨?_, ?_, ?_⟩
            · rw [hrf.1, haf.1, hcf.1, hcs]
            · rw [hrf.2.1, haf.2.1, hcf.2.1, hcc]
            · intro a ha
              have h1 := hcm rfl a ha
              rw [hlook, hlook] at h1
              unfold ids
              constructor
              · by_contra hc; exact h1.1 (if_neg hc)
              · by_contra hc; exact h1.2 (if_neg hc)
          · rw [if_neg hin] at h; cases h

/-- The states reported by the search emit. -/
theorem nextLoop_emits [Mul F] (g : Graph F) (stack : List (Arc F × F)) (visited : List ℕ) :
    ∀ l, g.nextLoop stack visited = .ok l → ∀ y ∈ l, ∃ p, g.pdfOf y.1 = some (some p) := by
  refine nextLoop_ind g (P := fun stack visited => ∀ l, g.nextLoop stack visited = .ok l →
    ∀ y ∈ l, ∃ p, g.pdfOf y.1 = some (some p)) ?_ ?_ ?_ ?_ ?_ stack visited
  · intro v l hl y hy
    rw [nextLoop_nil] at hl; cases hl; simp at hy
  · intro a w rest v hp l hl
    rw [nextLoop_err g a w rest v hp] at hl; cases hl
  · intro a w rest v p hp ih l hl y hy
    rw [nextLoop_emit g a w rest v p hp] at hl
    cases hr : g.nextLoop rest v with
    | error e => rw [hr] at hl; cases hl
    | ok l' =>
      rw [hr] at hl
      cases hl
      rcases List.mem_cons.1 hy with rfl | hy
      · exact ⟨p, hp⟩
      · exact ih l' hr y hy
  · intro a w rest v hp hv ih l hl
    rw [nextLoop_new g a w rest v hp hv] at hl
    exact ih l hl
  · intro a w rest v hp hv ih l hl
    rw [nextLoop_old g a w rest v hp hv] at hl
    exact ih l hl

end Graph

namespace Pipeline

open Verif.Graph

variable {F : Type}

/-! ### Dictionaries -/

section dict
variable {α β : Type} [DecidableEq α]

theorem dictSet_mem (d : List (α × β)) (k : α) (v : β) (p : α × β) (h : p ∈ dictSet d k v) :
    p ∈ d ∨ p = (k, v) := by
  unfold dictSet at h
  split at h
  · obtain ⟨q, hq, rfl⟩ := List.mem_map.1 h
    split
    · exact Or.inr rfl
    · exact Or.inl hq
  · rcases List.mem_append.1 h with h | h
    · exact Or.inl h
    · exact Or.inr (List.mem_singleton.1 h)

theorem dictSet_new (d : List (α × β)) (k : α) (v : β) (h : k ∉ d.map Prod.fst) :
    dictSet d k v = d ++ [(k, v)] := by unfold dictSet; rw [if_neg h]

theorem dictSet_keys (d : List (α × β)) (k : α) (v : β) :
    (dictSet d k v).map Prod.fst = if k ∈ d.map Prod.fst then d.map Prod.fst
      else d.map Prod.fst ++ [k] := by
  unfold dictSet
  split
  · rw [List.map_map]
    apply List.map_congr_left
    intro p _
    simp only [Function.comp]
    split
    · rename_i h; exact h.symm
    · rfl
  · simp

theorem dictSet_nodup (d : List (α × β)) (k : α) (v : β) (h : (d.map Prod.fst).Nodup) :
    ((dictSet d k v).map Prod.fst).Nodup := by
  rw [dictSet_keys]
  split
  · exact h
  · rename_i hk
    rw [List.nodup_append]
    refine ⟨h, by simp, fun a ha b hb hab => ?_⟩
    rw [List.mem_singleton] at hb
    subst hab; subst hb; exact hk ha

theorem foldl_dictSet_mem {γ : Type} (f : γ → α) (v : γ → β) (l : List γ) (d : List (α × β)) (p : α × β)
    (h : p ∈ l.foldl (fun d x => dictSet d (f x) (v x)) d) : p ∈ d ∨ ∃ x ∈ l, p = (f x, v x) := by
  induction l generalizing d with
  | nil => exact Or.inl h
  | cons x l ih =>
    rcases ih _ h with h | ⟨y, hy, rfl⟩
    · rcases dictSet_mem _ _ _ _ h with h | rfl
      · exact Or.inl h
      · exact Or.inr ⟨x, List.mem_cons_self, rfl⟩
    · exact Or.inr ⟨y, List.mem_cons_of_mem _ hy, rfl⟩

theorem foldl_dictSet_nodup {γ : Type} (f : γ → α) (v : γ → β) (l : List γ) (d : List (α × β))
    (h : (d.map Prod.fst).Nodup) :
    ((l.foldl (fun d x => dictSet d (f x) (v x)) d).map Prod.fst).Nodup := by
  induction l generalizing d with
  | nil => exact h
  | cons x l ih => exact ih _ (dictSet_nodup _ _ _ h)

theorem dictGet_mem (d : List (α × β)) (k : α) (v : β) (h : dictGet d k = .ok v) : (k, v) ∈ d := by
  unfold dictGet at h
  split at h
  · rename_i p hp
    cases h
    have h1 := List.mem_of_find?_eq_some hp
    have h2 := List.find?_some hp
    simp only [decide_eq_true_eq] at h2
    rw [← h2]; exact h1
  · cases h

theorem dictGet_of_mem (d : List (α × β)) (k : α) (v : β) (hn : (d.map Prod.fst).Nodup)
    (h : (k, v) ∈ d) : dictGet d k = .ok v := by
  unfold dictGet
  cases hf : d.find? (fun p => p.1 = k) with
  | none =>
    have := List.find?_eq_none.1 hf (k, v) h
    simp at this
  | some p =>
    dsimp only
    have h1 := List.mem_of_find?_eq_some hf
    have h2 := List.find?_some hf
    simp only [decide_eq_true_eq] at h2
    have := List.inj_on_of_nodup_map hn h1 h h2
    rw [this]

theorem dictGet_error (d : List (α × β)) (k : α) (h : k ∉ d.map Prod.fst) :
    dictGet d k = .error .keyError := by
  unfold dictGet
  rw [List.find?_eq_none.2]
  intro p hp
  simp only [decide_eq_true_eq]
  intro he
  exact h (List.mem_map.2 ⟨p, hp, he⟩)

end dict

/-! ### Topologies -/

theorem topoIds_mem (topo : List (Arc F)) (i : ℕ) :
    i ∈ topoIds topo ↔ ∃ a ∈ topo, a.start = i ∨ a.stop = i := by
  unfold topoIds
  rw [List.mem_insertionSort, List.mem_dedup, List.mem_flatMap]
  constructor
  · rintro ⟨a, ha, h⟩
    refine ⟨a, ha, ?_⟩
    simp only [List.mem_cons, List.not_mem_nil, or_false] at h
    rcases h with h | h
    · exact Or.inl h.symm
    · exact Or.inr h.symm
  · rintro ⟨a, ha, h⟩
    refine ⟨a, ha, ?_⟩
    simp only [List.mem_cons, List.not_mem_nil, or_false]
    rcases h with h | h
    · exact Or.inl h.symm
    · exact Or.inr h.symm

theorem topoIds_nodup (topo : List (Arc F)) : (topoIds topo).Nodup := by
  unfold topoIds
  exact ((List.perm_insertionSort _ _).nodup_iff).2 (List.nodup_dedup _)

/-- If all the ids are below the number of ids, they are the consecutive ids from zero. -/
theorem topoIds_range (topo : List (Arc F)) (h : ∀ i ∈ topoIds topo, i < (topoIds topo).length) :
    topoIds topo = List.range (topoIds topo).length := by
  have hs : (topoIds topo).Pairwise (· ≤ ·) := List.pairwise_insertionSort _ _
  have hp : (topoIds topo).Perm (List.range (topoIds topo).length) := by
    refine (List.subperm_of_subset (topoIds_nodup topo) (fun i hi => ?_)).perm_of_length_le (by simp)
    exact List.mem_range.2 (h i hi)
  exact hp.eq_of_pairwise (fun a b _ _ h1 h2 => le_antisymm h1 h2) hs List.pairwise_le_range

/-- The states made for a unit: non-emitting first and last states, and consecutive pdf ids. -/
theorem unitStates_frame (first last : ℕ) (is : List ℕ) (pdf : ℤ) (g : Graph F) :
    (unitStates first last is pdf g).arcs = g.arcs
    ∧ (unitStates first last is pdf g).count = g.count + is.length
    ∧ (unitStates first last is pdf g).ids = g.ids ++ List.range' g.count is.length := by
  induction is generalizing pdf g with
  | nil => exact ⟨rfl, rfl, by simp [unitStates]⟩
  | cons i is ih =>
    simp only [unitStates]
    split
    · obtain ⟨h1, h2, h3⟩ := ih pdf (g.addState none).1
      refine ⟨h1, by rw [h2]; simp [addState]; omega, ?_⟩
      rw [h3]; simp [addState, ids, List.range'_succ]
    · obtain ⟨h1, h2, h3⟩ := ih (pdf + 1) (g.addState (some pdf.toNat)).1
      refine ⟨h1, by rw [h2]; simp [addState]; omega, ?_⟩
      rw [h3]; simp [addState, ids, List.range'_succ]

theorem unitStates_pdf (first last : ℕ) (is : List ℕ) (pdf : ℤ) (hp : 0 ≤ pdf) (g : Graph F) :
    (unitStates first last is pdf g).pdfMapping = g.pdfMapping
      ++ List.range' pdf.toNat (is.filter (fun i => i ≠ first ∧ i ≠ last)).length := by
  induction is generalizing pdf g with
  | nil => simp [unitStates]
  | cons i is ih =>
    simp only [unitStates]
    split
    · rename_i h
      rw [ih pdf hp, List.filter_cons_of_neg (by simp; omega)]
      simp [addState, pdfMapping, List.filterMap_append]
    · rename_i h
      rw [ih (pdf + 1) (by omega), List.filter_cons_of_pos (by simp; omega)]
      have e : (pdf + 1).toNat = pdf.toNat + 1 := by omega
      rw [e]
      simp [addState, pdfMapping, List.filterMap_append, List.range'_succ]

theorem createUnitGraph_ids (topo : List (Arc F)) (sp sp' : ℤ) (g : Graph F)
    (h : createUnitGraph topo sp = .ok (g, sp')) :
    g.ids = List.range (topoIds topo).length ∧ sp' = sp + (topoIds topo).length - 2
    ∧ (∀ a ∈ topo, a.key ∈ g.keys) ∧ g.count = (topoIds topo).length
    ∧ ∃ first last, (topoIds topo).head? = some first ∧ (topoIds topo).getLast? = some last
      ∧ g.pdfMapping = (unitStates first last (List.range (topoIds topo).length) sp
          (Graph.empty : Graph F)).pdfMapping ∧ g.startState = some first ∧ g.endState = some last := by
  unfold createUnitGraph at h
  dsimp only at h
  split at h
  · rename_i first last hf hl
    cases h
    obtain ⟨h1, h2, h3⟩ := unitStates_frame first last (List.range (topoIds topo).length) sp
      (Graph.empty : Graph F)
    obtain ⟨f1, f2, f3, f4⟩ := addArcs_frame topo ({ unitStates first last
      (List.range (topoIds topo).length) sp (Graph.empty : Graph F) with
      startState := some first, endState := some last } : Graph F)
    refine ⟨?_, rfl, fun a ha => (addArcs_keys topo _).2 a ha, ?_, first, last, hf, hl, ?_, f3, f4⟩
    · unfold ids at h3 ⊢
      rw [f1]
      dsimp only
      rw [h3]
      simp [Graph.empty, List.range_eq_range']
    · rw [f2]; dsimp only; rw [h2]; simp [Graph.empty]
    · unfold pdfMapping; rw [f1]
  · cases h

/-- A unit graph all of whose arcs connect its states and which has an emitting state. -/
theorem createUnitGraph_good (topo : List (Arc F)) (sp sp' : ℤ) (hsp : 0 ≤ sp) (g : Graph F)
    (h : createUnitGraph topo sp = .ok (g, sp'))
    (hc : ∀ a ∈ g.arcs, a.start ∈ g.ids ∧ a.stop ∈ g.ids) (hne : g.pdfMapping ≠ []) :
    g.pdfMapping = List.range' sp.toNat g.pdfMapping.length ∧ sp' = sp + g.pdfMapping.length := by
  obtain ⟨h1, h2, h3, h4, first, last, hf, hl, hm, -, -⟩ := createUnitGraph_ids topo sp sp' g h
  set n := (topoIds topo).length with hn
  have hids : topoIds topo = List.range n := by
    apply topoIds_range
    intro i hi
    obtain ⟨a, ha, hai⟩ := (topoIds_mem topo i).1 hi
    obtain ⟨b, hb, hbk⟩ := List.mem_map.1 (h3 a ha)
    have hb' := hc b hb
    rw [h1] at hb'
    have e1 : b.start = a.start := congrArg Prod.fst hbk
    have e2 : b.stop = a.stop := congrArg Prod.snd hbk
    rw [e1, e2, List.mem_range, List.mem_range] at hb'
    rcases hai with rfl | rfl
    · exact hb'.1
    · exact hb'.2
  have hnpos : 0 < n := by
    rcases Nat.eq_zero_or_pos n with h0 | h0
    · rw [hids, h0] at hf; simp at hf
    · exact h0
  rw [hids] at hf hl
  have hf' : first = 0 := by
    rw [List.head?_range] at hf
    rw [if_neg (by omega)] at hf
    exact (Option.some.inj hf).symm
  have hl' : last = n - 1 := by
    rw [List.getLast?_range, if_neg (by omega)] at hl
    exact (Option.some.inj hl).symm
  rw [unitStates_pdf _ _ _ _ hsp] at hm
  have hlen : ((List.range n).filter (fun i => i ≠ first ∧ i ≠ last)).length = n - 2 := by
    subst hf'; subst hl'
    clear_value n
    clear hn hids hf hl hm h1 h2 h4 h3
    obtain ⟨m, rfl⟩ : ∃ m, n = m + 1 := ⟨n - 1, by omega⟩
    rw [List.range_succ_eq_map, List.filter_cons_of_neg (by simp), List.filter_map, List.length_map]
    cases m with
    | zero => simp
    | succ m =>
      rw [List.range_succ, List.filter_append]
      have : (List.range m).filter ((fun i => decide (i ≠ 0 ∧ i ≠ m + 1 + 1 - 1)) ∘ Nat.succ)
          = List.range m := by
        rw [List.filter_eq_self]
        intro i hi
        have := List.mem_range.1 hi
        simp; omega
      rw [this]
      simp
  rw [hlen] at hm
  have hm0 : (Graph.empty : Graph F).pdfMapping = [] := rfl
  rw [hm0, List.nil_append] at hm
  have hpl : g.pdfMapping.length = n - 2 := by rw [hm]; simp
  have : 0 < g.pdfMapping.length := List.length_pos_iff.2 hne
  refine ⟨by rw [hpl]; exact hm, ?_⟩
  rw [h2, hpl]; omega

theorem countEmitting_eq (g : Graph F) : countEmitting g = g.pdfMapping.length := by
  unfold countEmitting pdfMapping
  induction g.states with
  | nil => rfl
  | cons s l ih =>
    obtain ⟨i, p⟩ := s
    cases p with
    | none => simpa using ih
    | some p => simpa using ih

/-! ### Creation of the units -/

/-- Units created one after the other. -/
inductive UnitChain : ℤ → List (Graph F) → ℤ → Prop
  | nil (sp : ℤ) : UnitChain sp [] sp
  | cons (topo : List (Arc F)) (sp sp' sp'' : ℤ) (g : Graph F) (gs : List (Graph F)) :
      createUnitGraph topo sp = .ok (g, sp') → UnitChain sp' gs sp'' → UnitChain sp (g :: gs) sp''

theorem UnitChain.append {sp sp' sp'' : ℤ} {gs gs' : List (Graph F)} (h : UnitChain sp gs sp')
    (h' : UnitChain sp' gs' sp'') : UnitChain sp (gs ++ gs') sp'' := by
  induction h with
  | nil => exact h'
  | cons topo sp sp1 sp2 g gs hg _ ih => exact .cons topo sp sp1 _ g _ hg (ih h')

theorem makeGroup_chain (topo : List (Arc F)) (names : List String)
    (st st' : ℤ × List (String × Graph F) × ℕ) (hn : names.Nodup)
    (hd : ∀ n ∈ names, n ∉ st.2.1.map Prod.fst) (h : makeGroup topo names st = .ok st') :
    ∃ new : List (String × Graph F), st'.2.1 = st.2.1 ++ new ∧ new.map Prod.fst = names
      ∧ UnitChain st.1 (new.map Prod.snd) st'.1
      ∧ st'.2.2 = st.2.2 + (new.map (fun p => p.2.pdfMapping.length)).sum := by
  induction names generalizing st with
  | nil => cases h; exact ⟨[], by simp, rfl, .nil _, by simp⟩
  | cons name names ih =>
    rw [List.nodup_cons] at hn
    simp only [makeGroup] at h
    cases hc : createUnitGraph topo st.1 with
    | error e => rw [hc] at h; cases h
    | ok r =>
      obtain ⟨g, sp⟩ := r
      rw [hc] at h
      dsimp only at h
      have hnew := dictSet_new st.2.1 name g (hd name List.mem_cons_self)
      rw [hnew] at h
      obtain ⟨new, h1, h2, h3, h4⟩ := ih _ hn.2 (by
        intro n hm hmem
        simp only [List.map_append, List.map_cons, List.map_nil, List.mem_append,
          List.mem_singleton] at hmem
        rcases hmem with hmem | rfl
        · exact hd n (List.mem_cons_of_mem _ hm) hmem
        · exact hn.1 hm) h
      refine ⟨(name, g) :: new, ?_, ?_, ?_, ?_⟩
      · rw [h1]; simp
      · simp [h2]
      · exact .cons topo _ _ _ g _ hc h3
      · rw [h4, countEmitting_eq]; simp [Nat.add_assoc]

theorem makeGroups_chain (gconf : List (String × List (Arc F))) (gs : List (String × List String))
    (bound : Bool) (st st' : ℤ × List (String × Graph F) × ℕ) (hn : (gs.flatMap Prod.snd).Nodup)
    (hd : ∀ n ∈ gs.flatMap Prod.snd, n ∉ st.2.1.map Prod.fst)
    (h : makeGroups gconf gs bound st = .ok st') :
    ∃ new : List (String × Graph F), st'.2.1 = st.2.1 ++ new ∧ new.map Prod.fst = gs.flatMap Prod.snd
      ∧ UnitChain st.1 (new.map Prod.snd) st'.1
      ∧ st'.2.2 = st.2.2 + (new.map (fun p => p.2.pdfMapping.length)).sum := by
  induction gs generalizing st bound with
  | nil => cases h; exact ⟨[], by simp, rfl, .nil _, by simp⟩
  | cons gn gs ih =>
    obtain ⟨group, names⟩ := gn
    simp only [List.flatMap_cons] at hn hd ⊢
    rw [List.nodup_append] at hn
    simp only [makeGroups] at h
    by_cases hb : names = [] ∧ bound = false
    · rw [if_pos hb] at h; cases h
    rw [if_neg hb] at h
    cases hc : dictGet gconf group with
    | error e => rw [hc] at h; cases h
    | ok topo =>
      rw [hc] at h
      dsimp only at h
      cases hg : makeGroup topo names (st.1, st.2.1, 0) with
      | error e => rw [hg] at h; cases h
      | ok st1 =>
        rw [hg] at h
        dsimp only at h
        cases hp : createPdfs st1.2.2 with
        | error e => rw [hp] at h; cases h
        | ok n =>
        have hpn : n = st1.2.2 := by
          unfold createPdfs at hp
          split at hp
          · cases hp
          · cases hp; rfl
        subst hpn
        rw [hp] at h
        dsimp only at h
        obtain ⟨new1, a1, a2, a3, a4⟩ := makeGroup_chain topo names (st.1, st.2.1, 0) st1 hn.1
          (fun n hm => hd n (List.mem_append_left _ hm)) hg
        obtain ⟨new2, b1, b2, b3, b4⟩ := ih true _ hn.2.1 (by
          intro n hm hmem
          dsimp only at hmem
          rw [a1, List.map_append, List.mem_append, a2] at hmem
          rcases hmem with hmem | hmem
          · exact hd n (List.mem_append_right _ hm) hmem
          · exact hn.2.2 n hmem n hm rfl) h
        refine ⟨new1 ++ new2, ?_, ?_, ?_, ?_⟩
        · rw [b1]
          dsimp only
          rw [a1, List.append_assoc]
        · rw [List.map_append, a2, b2]
        · rw [List.map_append]; exact a3.append b3
        · rw [b4]
          dsimp only
          rw [a4]; simp [Nat.add_assoc]

theorem flatMap_dictSet_perm (d : List (String × List String)) (k name : String) (v : List String)
    (hn : (d.map Prod.fst).Nodup) (h : (k, v) ∈ d) :
    ((dictSet d k (v ++ [name])).flatMap Prod.snd).Perm (d.flatMap Prod.snd ++ [name]) := by
  unfold dictSet
  rw [if_pos (List.mem_map.2 ⟨_, h, rfl⟩)]
  induction d with
  | nil => simp at h
  | cons q d ih =>
    rw [List.map_cons, List.nodup_cons] at hn
    rw [List.map_cons, List.flatMap_cons, List.flatMap_cons]
    rcases List.mem_cons.1 h with rfl | hm
    · have he : d.map (fun p => if p.1 = k then (k, v ++ [name]) else p) = d := by
        conv_rhs => rw [← List.map_id d]
        apply List.map_congr_left
        intro p hp
        rw [if_neg]
        · rfl
        · rintro rfl; exact hn.1 (List.mem_map.2 ⟨p, hp, rfl⟩)
      rw [he]
      simp only [if_true, List.append_assoc]
      exact List.Perm.append_left _ (List.perm_append_comm)
    · have hne : q.1 ≠ k := by
        rintro rfl; exact hn.1 (List.mem_map.2 ⟨_, hm, rfl⟩)
      rw [if_neg hne, List.append_assoc]
      exact List.Perm.append_left _ (ih hn.2 hm)

theorem groupUnits_perm (ls : List (String × String)) (d d' : List (String × List String))
    (hn : (d.map Prod.fst).Nodup) (h : groupUnits ls d = .ok d') :
    (d'.flatMap Prod.snd).Perm (d.flatMap Prod.snd ++ ls.map Prod.fst) := by
  induction ls generalizing d with
  | nil => cases h; simp
  | cons l ls ih =>
    obtain ⟨name, group⟩ := l
    simp only [groupUnits] at h
    cases hg : dictGet d group with
    | error e => rw [hg] at h; cases h
    | ok names =>
      rw [hg] at h
      dsimp only at h
      refine (ih _ (dictSet_nodup _ _ _ hn) h).trans ?_
      refine ((flatMap_dictSet_perm d group name names hn (dictGet_mem _ _ _ hg)).append_right _).trans ?_
      simp

theorem mkphones_chain (conf : List (String × List (Arc F))) (ls : List (String × String))
    (units : List (String × Graph F)) (n : ℕ) (hn : (ls.map Prod.fst).Nodup)
    (h : mkphones conf ls = .ok (units, n)) :
    (units.map Prod.fst).Perm (ls.map Prod.fst)
    ∧ (∃ sp, UnitChain 0 (units.map Prod.snd) sp)
    ∧ n = (units.map (fun p => p.2.pdfMapping.length)).sum := by
  unfold mkphones at h
  dsimp only at h
  cases hg : groupUnits ls ((groupsConf conf).map fun p => (p.1, [])) with
  | error e => rw [hg] at h; cases h
  | ok grouped =>
    rw [hg] at h
    dsimp only at h
    cases hm : makeGroups (groupsConf conf) grouped false (0, [], 0) with
    | error e => rw [hm] at h; cases h
    | ok st =>
      rw [hm] at h
      cases h
      have hperm := groupUnits_perm ls _ _ (by
        rw [List.map_map]
        exact foldl_dictSet_nodup Prod.fst Prod.snd conf [] (by simp)) hg
      have h0 : (((groupsConf conf).map fun p => (p.1, ([] : List String))).flatMap Prod.snd) = [] := by
        simp [List.flatMap_map]
      rw [h0, List.nil_append] at hperm
      obtain ⟨new, h1, h2, h3, h4⟩ := makeGroups_chain (groupsConf conf) grouped false (0, [], 0) st
        (hperm.nodup_iff.2 hn) (by simp) hm
      simp only [List.nil_append] at h1
      rw [h1]
      refine ⟨h2 ▸ hperm, ⟨_, h3⟩, ?_⟩
      simpa using h4

/-! ### The phone-loop graph -/

/-- All the states are non-emitting and the dictionary only contains ids handed out. -/
theorem addUnits_silent (us : List (String × String)) (st : Graph F × List (String × ℕ))
    (h1 : ∀ s ∈ st.1.states, s.2 = none) (h2 : ∀ p ∈ st.2, p.2 < st.1.count)
    (h3 : 3 ≤ st.1.count) :
    (∀ s ∈ (addUnits us st).1.states, s.2 = none) ∧ (∀ p ∈ (addUnits us st).2, p.2 < (addUnits us st).1.count)
    ∧ 3 ≤ (addUnits us st).1.count := by
  induction us generalizing st with
  | nil => exact ⟨h1, h2, h3⟩
  | cons u us ih =>
    obtain ⟨name, grp⟩ := u
    simp only [addUnits]
    apply ih
    · intro s hs
      rcases List.mem_append.1 hs with hs | hs
      · exact h1 s hs
      · rw [List.mem_singleton.1 hs]
    · intro p hp
      rcases dictSet_mem _ _ _ _ hp with hp | rfl
      · have := h2 p hp; simp only [addState]; omega
      · simp [addState]
    · simp only [addState]; omega

theorem addUnitArcs_frame (u2s : List (String × ℕ)) (f : Graph F → ℕ → Graph F)
    (hf : ∀ g s, (f g s).states = g.states ∧ (f g s).count = g.count)
    (us : List String) (g g' : Graph F) (h : addUnitArcs u2s f us g = .ok g') :
    g'.states = g.states ∧ g'.count = g.count := by
  induction us generalizing g with
  | nil => cases h; exact ⟨rfl, rfl⟩
  | cons u us ih =>
    simp only [addUnitArcs] at h
    split at h
    · cases h
    · have := ih _ h
      exact ⟨this.1.trans (hf _ _).1, this.2.trans (hf _ _).2⟩

theorem mkphoneloopgraph_silent [Field F] [DecidableEq F] (us : List (String × String))
    (grp : Option String) (g : Graph F) (sym : List (ℕ × String))
    (h : mkphoneloopgraph us grp = .ok (g, sym)) :
    (∀ s ∈ g.states, s.2 = none) ∧ ∀ p ∈ sym, p.1 < g.count := by
  unfold mkphoneloopgraph at h
  dsimp only at h
  obtain ⟨a1, a2, a3⟩ := addUnits_silent us ((loopBase : Graph F), [])
    (by simp [loopBase, Graph.empty, addState]) (by simp) (by simp [loopBase, Graph.empty, addState])
  set r := addUnits us ((loopBase : Graph F), []) with hr
  set u2s := r.2.foldl (fun d p => dictSet d p.1 p.2) [("\\<s\\>", 0), ("\\</s\\>", 1), ("#1", 2)] with hu
  have hu2s : ∀ p ∈ u2s, p.2 < r.1.count := by
    intro p hp
    rcases foldl_dictSet_mem Prod.fst Prod.snd _ _ _ hp with hp | ⟨x, hx, rfl⟩
    · simp only [List.mem_cons, List.not_mem_nil, or_false] at hp
      rcases hp with rfl | rfl | rfl <;> simp <;> omega
    · exact a2 x hx
  split at h
  · cases h
  · rename_i ses _
    split at h
    · cases h
    · rename_i g1 hg1
      split at h
      · cases h
      · rename_i g2 hg2
        split at h
        · cases h
        · rename_i g3 hg3
          split at h
          · cases h
          · rename_i g4 hg4
            cases h
            have e1 := addUnitArcs_frame _ _ (fun g s => (addArc_count g 0 s 1).symm) _ _ _ hg1
            have e2 := addUnitArcs_frame _ _ (fun g s => (addArc_count g s 1 1).symm) _ _ _ hg2
            have e3 := addUnitArcs_frame _ _ (fun g s => ⟨((addArc_count _ s 2 1).2).trans
              (addArc_count g 2 s 1).2, ((addArc_count _ s 2 1).1).trans (addArc_count g 2 s 1).1⟩)
              _ _ _ hg3
            have e4 := normalizeLoop_frame g3.ids g3
            have e5 : (normalizeLoop g3.ids g3).1 = g := by
              have := congrArg Prod.fst hg4; exact this
            rw [e5] at e4
            have hst : g.states = r.1.states := by rw [e4.2.1, e3.1, e2.1, e1.1]
            have hct : g.count = r.1.count := by rw [e4.1, e3.2, e2.2, e1.2]
            rw [hst, hct]
            refine ⟨a1, fun p hp => ?_⟩
            rcases foldl_dictSet_mem Prod.snd Prod.fst _ _ _ hp with hp | ⟨x, hx, rfl⟩
            · simp at hp
            · exact hu2s x hx

/-! ### Substitution of the units -/

theorem filterMap_snd_filter (l : List (ℕ × Option ℕ)) (old : ℕ)
    (h : ∀ s ∈ l, s.1 = old → s.2 = none) :
    (l.filter (fun s => s.1 ≠ old)).filterMap Prod.snd = l.filterMap Prod.snd := by
  induction l with
  | nil => rfl
  | cons s l ih =>
    have ih' := ih (fun s hs => h s (List.mem_cons_of_mem _ hs))
    by_cases he : s.1 = old
    · rw [List.filter_cons_of_neg (by simpa using he), ih', List.filterMap_cons_none
        (h s List.mem_cons_self he)]
    · rw [List.filter_cons_of_pos (by simpa using he), List.filterMap_cons, List.filterMap_cons, ih']

theorem replaceAll_pdf (base : ℕ) (p2s : List (String × ℕ)) (hp : ∀ p ∈ p2s, p.2 < base)
    (units : List (String × Graph F)) (g g' : Graph F) (hb : base ≤ g.count)
    (hs : ∀ s ∈ g.states, s.1 < base → s.2 = none) (h : replaceAll p2s units g = .ok g') :
    g'.pdfMapping = g.pdfMapping ++ units.flatMap (fun p => p.2.pdfMapping)
    ∧ ∀ p ∈ units, ∀ a ∈ p.2.arcs, a.start ∈ p.2.ids ∧ a.stop ∈ p.2.ids := by
  induction units generalizing g with
  | nil => cases h; simp
  | cons u units ih =>
    obtain ⟨phone, hmm⟩ := u
    simp only [replaceAll] at h
    split at h
    · cases h
    · rename_i s hgs
      have hsb := hp _ (dictGet_mem _ _ _ hgs)
      dsimp only at hsb
      split at h
      · cases h
      · rename_i g1 hg1
        have hok := replaceState_ok g s hmm (by rw [hg1])
        rw [hg1] at hok
        dsimp only at hok
        obtain ⟨o1, o2, o3⟩ := hok
        have hsil : ∀ t ∈ g.states ++ hmm.states.mapIdx (fun k s => (g.count + k, s.2)),
            t.1 < base → t.2 = none := by
          intro t ht htb
          rcases List.mem_append.1 ht with ht | ht
          · exact hs t ht htb
          · obtain ⟨k, hk, rfl⟩ := List.mem_mapIdx.1 ht
            dsimp only at htb
            omega
        obtain ⟨i1, i2⟩ := ih g1 (by omega) (by
          intro t ht htb
          rw [o1] at ht
          exact hsil t (List.mem_filter.1 ht).1 htb) h
        refine ⟨?_, ?_⟩
        · rw [i1]
          have : g1.pdfMapping = g.pdfMapping ++ hmm.pdfMapping := by
            unfold pdfMapping
            rw [o1, filterMap_snd_filter _ _ (fun t ht he => hsil t ht (by omega)),
              List.filterMap_append]
            congr 1
            clear * -
            generalize g.count = c
            induction hmm.states using List.reverseRecOn with
            | nil => rfl
            | append_singleton l s ih =>
              simp only [List.mapIdx_append, List.mapIdx_cons, List.mapIdx_nil,
                List.filterMap_append, Nat.add_zero, Nat.zero_add] at *
              rw [ih]
              obtain ⟨i, p⟩ := s
              cases p <;> rfl
          rw [this]; simp
        · intro p hpm
          rcases List.mem_cons.1 hpm with rfl | hpm
          · exact o3
          · exact i2 p hpm

theorem firstPdf_emits [Mul F] [One F] (g : Graph F) (p : Option ℕ) (h : firstPdf g = .ok p) :
    g.pdfMapping ≠ [] := by
  unfold firstPdf at h
  split at h
  · cases h
  · rename_i s w hl
    have := nextLoop_emits g _ _ _ hl (s, w) List.mem_cons_self
    obtain ⟨q, hq⟩ := this
    have hm := lookup_mem _ _ _ hq
    intro h0
    have : q ∈ g.pdfMapping := List.mem_filterMap.2 ⟨_, hm, rfl⟩
    rw [h0] at this; simp at this
  · cases h

theorem entryExit_emits [Mul F] [One F] (units : List (String × Graph F)) (st st')
    (h : entryExit units st = .ok st') : ∀ p ∈ units, p.2.pdfMapping ≠ [] := by
  induction units generalizing st with
  | nil => simp
  | cons u units ih =>
    obtain ⟨phone, hmm⟩ := u
    simp only [entryExit] at h
    split at h
    · cases h
    · rename_i s hs
      split at h
      · cases h
      · intro p hp
        rcases List.mem_cons.1 hp with rfl | hp
        · exact firstPdf_emits _ _ hs
        · exact ih _ h p hp

theorem chain_range (sp sp' : ℤ) (gs : List (Graph F)) (h : UnitChain sp gs sp') (hsp : 0 ≤ sp)
    (hc : ∀ g ∈ gs, ∀ a ∈ g.arcs, a.start ∈ g.ids ∧ a.stop ∈ g.ids)
    (hne : ∀ g ∈ gs, g.pdfMapping ≠ []) :
    gs.flatMap (fun g => g.pdfMapping)
      = List.range' sp.toNat (gs.map (fun g => g.pdfMapping.length)).sum := by
  induction h with
  | nil => simp
  | cons topo sp sp1 sp2 g gs hg _ ih =>
    obtain ⟨h1, h2⟩ := createUnitGraph_good topo sp sp1 hsp g hg (hc g List.mem_cons_self)
      (hne g List.mem_cons_self)
    rw [List.flatMap_cons, ih (by omega) (fun g hg => hc g (List.mem_cons_of_mem _ hg))
      (fun g hg => hne g (List.mem_cons_of_mem _ hg)), h2]
    have : (sp + (g.pdfMapping.length : ℤ)).toNat = sp.toNat + g.pdfMapping.length := by omega
    rw [this, List.map_cons, List.sum_cons, ← List.range'_append_1]
    congr 1

end Pipeline
end Verif
