import Verif.Model.Graph
import Mathlib.Data.List.Nodup
import Mathlib.Data.List.Basic
import Mathlib.Data.List.Range
import Mathlib.Algebra.BigOperators.Group.List.Lemmas
import Mathlib.Tactic.Ring
import Mathlib.Tactic.FieldSimp

/-! # Helper lemmas on graphs -/

namespace Verif

variable {F : Type}

/-- What identifies an arc in the set. -/
def Arc.key (a : Arc F) : ℕ × ℕ := (a.start, a.stop)

theorem Arc.sameKey_iff (a b : Arc F) : a.sameKey b = true ↔ a.key = b.key := by
  simp [Arc.sameKey, Arc.key]

namespace Graph

/-- Keys of the arcs. -/
def keys (g : Graph F) : List (ℕ × ℕ) := g.arcs.map Arc.key

/-- Representation invariant. -/
structure Inv (g : Graph F) : Prop where
  ids_nodup : g.ids.Nodup
  ids_lt : ∀ i ∈ g.ids, i < g.count
  keys_nodup : g.keys.Nodup

theorem inv_empty : (empty : Graph F).Inv :=
  ⟨by simp [empty, ids], by simp [empty, ids], by simp [empty, keys]⟩

theorem addArc_eq (g : Graph F) (s e : ℕ) (w : F) :
    g.addArc s e w = if (s, e) ∈ g.keys then g else { g with arcs := g.arcs ++ [⟨s, e, w⟩] } := by
  have : (g.arcs.any (fun a => a.sameKey ⟨s, e, w⟩) = true) ↔ (s, e) ∈ g.keys := by
    simp only [List.any_eq_true, Arc.sameKey_iff, keys, List.mem_map]
    constructor
    · rintro ⟨a, ha, h⟩; exact ⟨a, ha, h⟩
    · rintro ⟨a, ha, h⟩; exact ⟨a, ha, h⟩
  by_cases h : (s, e) ∈ g.keys
  · rw [addArc, if_pos (this.2 h), if_pos h]
  · rw [addArc, if_neg (fun h' => h (this.1 h')), if_neg h]

theorem addArc_count (g : Graph F) (s e : ℕ) (w : F) :
    (g.addArc s e w).count = g.count ∧ (g.addArc s e w).states = g.states := by
  rw [addArc_eq]; split <;> exact ⟨rfl, rfl⟩

theorem addArc_inv (g : Graph F) (s e : ℕ) (w : F) (h : g.Inv) : (g.addArc s e w).Inv := by
  rw [addArc_eq]
  split
  · exact h
  · rename_i hk
    refine ⟨h.ids_nodup, h.ids_lt, ?_⟩
    change ((g.arcs ++ [(⟨s, e, w⟩ : Arc F)]).map Arc.key).Nodup
    rw [List.map_append, List.nodup_append]
    refine ⟨h.keys_nodup, by simp, ?_⟩
    intro a ha b hb
    simp only [List.map_cons, List.map_nil, List.mem_singleton] at hb
    subst hb
    rintro rfl
    exact hk ha

theorem addState_inv (g : Graph F) (pdf : Option ℕ) (h : g.Inv) : (g.addState pdf).1.Inv := by
  refine ⟨?_, ?_, h.keys_nodup⟩
  · change ((g.states ++ [(g.count, pdf)]).map Prod.fst).Nodup
    rw [List.map_append, List.nodup_append]
    refine ⟨h.ids_nodup, by simp, ?_⟩
    intro a ha b hb
    simp only [List.map_cons, List.map_nil, List.mem_singleton] at hb
    subst hb
    exact Nat.ne_of_lt (h.ids_lt a ha)
  · intro i hi
    change i ∈ (g.states ++ [(g.count, pdf)]).map Prod.fst at hi
    rw [List.map_append, List.mem_append] at hi
    change i < g.count + 1
    rcases hi with hi | hi
    · exact Nat.lt_succ_of_lt (h.ids_lt i hi)
    · simp at hi; omega

theorem copyStates_count (ss : List (ℕ × Option ℕ)) (g : Graph F) :
    (g.copyStates ss).1.count = g.count + ss.length := by
  induction ss generalizing g with
  | nil => rfl
  | cons s ss ih => obtain ⟨i, p⟩ := s; simp [copyStates, ih, addState]; omega

theorem copyStates_inv (ss : List (ℕ × Option ℕ)) (g : Graph F) (h : g.Inv) :
    (g.copyStates ss).1.Inv := by
  induction ss generalizing g with
  | nil => exact h
  | cons s ss ih => obtain ⟨i, p⟩ := s; exact ih _ (addState_inv g p h)

theorem copyArcs_inv (m : List (ℕ × ℕ)) (as : List (Arc F)) (g : Graph F) (h : g.Inv) :
    (copyArcs m as g).1.Inv ∧ (copyArcs m as g).1.count = g.count := by
  induction as generalizing g with
  | nil => exact ⟨h, rfl⟩
  | cons a as ih =>
    simp only [copyArcs]
    split
    · rename_i s e _ _
      have := ih _ (addArc_inv g s e a.weight h)
      exact ⟨this.1, this.2.trans (addArc_count g s e a.weight).1⟩
    · exact ⟨h, rfl⟩

theorem addArcs_inv (l : List (Arc F)) (g : Graph F) (h : g.Inv) :
    (g.addArcs l).Inv ∧ (g.addArcs l).count = g.count := by
  induction l generalizing g with
  | nil => exact ⟨h, rfl⟩
  | cons a l ih =>
    have := ih _ (addArc_inv g a.start a.stop a.weight h)
    exact ⟨this.1, this.2.trans (addArc_count g _ _ _).1⟩

theorem removeArcs_inv (l : List (Arc F)) (g : Graph F) (h : g.Inv) :
    (removeArcs l g).1.Inv ∧ (removeArcs l g).1.count = g.count := by
  induction l generalizing g with
  | nil => exact ⟨h, rfl⟩
  | cons a l ih =>
    simp only [removeArcs]
    split
    · exact ih _ ⟨h.ids_nodup, h.ids_lt, h.keys_nodup.sublist (List.filter_sublist.map _)⟩
    · exact ⟨h, rfl⟩

theorem replaceState_inv (g : Graph F) (old : ℕ) (sub : Graph F) (h : g.Inv) :
    (g.replaceState old sub).1.Inv ∧ g.count ≤ (g.replaceState old sub).1.count := by
  have h1 := copyStates_inv sub.states g h
  have c1 := copyStates_count sub.states g
  unfold replaceState
  simp only
  have h2 := copyArcs_inv (g.copyStates sub.states).2 sub.arcs _ h1
  split
  · rename_i g2 e he
    rw [he] at h2
    exact ⟨h2.1, by have := h2.2; simp only at this; omega⟩
  · rename_i g2 he
    rw [he] at h2
    obtain ⟨h2, c2⟩ := h2
    simp only at h2 c2
    split
    · exact ⟨h2, by simp only; omega⟩
    · split
      · exact ⟨h2, by simp only; omega⟩
      · rename_i newOut _ _ newIn _
        have h3 := addArcs_inv (newOut ++ newIn) g2 h2
        have h4 := removeArcs_inv
          (g2.arcsFrom (some old) ++ g2.arcsTo (some old)) _ h3.1
        split
        · rename_i g3 e he3
          rw [he3] at h4
          exact ⟨h4.1, by have := h4.2; have := h3.2; simp only at *; omega⟩
        · rename_i g3 he3
          rw [he3] at h4
          have c4 : g3.count = g.count + sub.states.length := by
            have := h4.2; have := h3.2; simp only at *; omega
          split
          · refine ⟨⟨?_, ?_, h4.1.keys_nodup⟩, by simp only; omega⟩
            · exact h4.1.ids_nodup.sublist (List.filter_sublist.map _)
            · intro i hi
              exact h4.1.ids_lt i ((List.filter_sublist.map Prod.fst).subset hi)
          · exact ⟨h4.1, by simp only; omega⟩

theorem normalizeState_eq [Field F] [DecidableEq F] {g g' : Graph F} {s : ℕ}
    (h : normalizeState g s = .ok g') :
    g'.count = g.count ∧ g'.states = g.states ∧ g'.startState = g.startState ∧ g'.endState = g.endState
    ∧ g'.arcs = g.arcs.map (fun a => if a.start = s then
        { a with weight := a.weight / ((g.arcsFrom (some s)).map (·.weight)).sum } else a) := by
  unfold normalizeState at h
  simp only at h
  split at h
  · cases h
  · injection h with h
    subst h
    exact ⟨rfl, rfl, rfl, rfl, rfl⟩

theorem normalizeState_keys [Field F] [DecidableEq F] {g g' : Graph F} {s : ℕ}
    (h : normalizeState g s = .ok g') : g'.keys = g.keys := by
  obtain ⟨-, -, -, -, ha⟩ := normalizeState_eq h
  simp only [keys, ha, List.map_map]
  apply List.map_congr_left
  intro a _
  simp only [Function.comp]
  split <;> rfl

theorem normalizeLoop_frame [Field F] [DecidableEq F] (ss : List ℕ) (g : Graph F) :
    (normalizeLoop ss g).1.count = g.count ∧ (normalizeLoop ss g).1.states = g.states
    ∧ (normalizeLoop ss g).1.keys = g.keys ∧ (normalizeLoop ss g).1.startState = g.startState
    ∧ (normalizeLoop ss g).1.endState = g.endState := by
  induction ss generalizing g with
  | nil => exact ⟨rfl, rfl, rfl, rfl, rfl⟩
  | cons s ss ih =>
    simp only [normalizeLoop]
    split
    · exact ⟨rfl, rfl, rfl, rfl, rfl⟩
    · rename_i g' he
      obtain ⟨a, b, c, d, -⟩ := normalizeState_eq he
      obtain ⟨a', b', k', c', d'⟩ := ih g'
      exact ⟨a'.trans a, b'.trans b, k'.trans (normalizeState_keys he), c'.trans c, d'.trans d⟩

theorem normalize_inv [Field F] [DecidableEq F] (g : Graph F) (h : g.Inv) : g.normalize.1.Inv := by
  obtain ⟨hc, hs, hk, -, -⟩ := normalizeLoop_frame g.ids g
  have hid : g.normalize.1.ids = g.ids := by unfold ids normalize; rw [show (normalizeLoop g.ids g).1.states = g.states from hs]
  exact ⟨hid ▸ h.ids_nodup, fun i hi => by rw [hid] at hi; exact hc ▸ h.ids_lt i hi, by
    rw [show g.normalize.1.keys = g.keys from hk]; exact h.keys_nodup⟩

end Graph

end Verif
