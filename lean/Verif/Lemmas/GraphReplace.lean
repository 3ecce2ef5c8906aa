import Verif.Lemmas.Graph

/-! # Helper lemmas on `replace_state` -/

namespace Verif
namespace Graph

variable {F : Type}

theorem copyStates_states (ss : List (ℕ × Option ℕ)) (g : Graph F) :
    (g.copyStates ss).1.states = g.states ++ ss.mapIdx (fun k s => (g.count + k, s.2))
    ∧ (g.copyStates ss).1.arcs = g.arcs ∧ (g.copyStates ss).1.startState = g.startState
    ∧ (g.copyStates ss).1.endState = g.endState := by
  induction ss generalizing g with
  | nil => simp [copyStates]
  | cons s ss ih =>
    obtain ⟨i, p⟩ := s
    have := ih (g.addState p).1
    simp only [copyStates]
    refine ⟨?_, this.2.1, this.2.2.1, this.2.2.2⟩
    rw [this.1]
    simp only [addState, List.mapIdx_cons, List.append_assoc, List.cons_append, List.nil_append,
      Nat.add_zero]
    congr 3
    funext k s
    simp; omega

theorem copyStates_lookup (ss : List (ℕ × Option ℕ)) (g : Graph F) (i : ℕ) :
    (g.copyStates ss).2.lookup i
      = if i ∈ ss.map Prod.fst then some (g.count + (ss.map Prod.fst).idxOf i) else none := by
  induction ss generalizing g with
  | nil => simp [copyStates]
  | cons s ss ih =>
    obtain ⟨j, p⟩ := s
    simp only [copyStates, List.lookup_cons, List.map_cons, List.mem_cons]
    by_cases h : i = j
    · subst h; simp [addState]
    · have h' : (i == j) = false := by simpa using h
      rw [h', ih]
      have hj : ¬ j = i := fun e => h e.symm
      by_cases hm : i ∈ ss.map Prod.fst
      · simp only [hm, if_true, or_true, List.idxOf_cons_ne _ hj, addState]
        congr 1; omega
      · simp [hm, h]

theorem addArcs_append (l : List (Arc F)) (g : Graph F) (hn : (l.map Arc.key).Nodup)
    (hd : ∀ a ∈ l, a.key ∉ g.keys) : g.addArcs l = { g with arcs := g.arcs ++ l } := by
  induction l generalizing g with
  | nil => simp [addArcs]
  | cons a l ih =>
    rw [List.map_cons, List.nodup_cons] at hn
    have h1 : g.addArc a.start a.stop a.weight = { g with arcs := g.arcs ++ [a] } := by
      rw [addArc_eq, if_neg]
      exact hd a List.mem_cons_self
    change (g.addArc a.start a.stop a.weight).addArcs l = _
    rw [h1, ih _ hn.2]
    · simp
    · intro b hb hbk
      simp only [keys, List.map_append, List.mem_append, List.map_cons, List.map_nil,
        List.mem_singleton] at hbk
      rcases hbk with hbk | hbk
      · exact hd b (List.mem_cons_of_mem _ hb) hbk
      · exact hn.1 (hbk ▸ List.mem_map.2 ⟨b, hb, rfl⟩)

theorem copyArcs_ok (m : List (ℕ × ℕ)) (cp : ℕ → ℕ) (as : List (Arc F)) (g : Graph F)
    (h : ∀ a ∈ as, m.lookup a.start = some (cp a.start) ∧ m.lookup a.stop = some (cp a.stop)) :
    copyArcs m as g = (g.addArcs (as.map (fun a => ⟨cp a.start, cp a.stop, a.weight⟩)), none) := by
  induction as generalizing g with
  | nil => rfl
  | cons a as ih =>
    have ha := h a List.mem_cons_self
    simp only [copyArcs, newId, ha.1, ha.2]
    rw [ih _ (fun b hb => h b (List.mem_cons_of_mem _ hb))]
    rfl

theorem redirectOut_ok (e : ℕ) (l : List (Arc F)) :
    redirectOut (some e) l = .ok (l.map (fun a => ⟨e, a.stop, a.weight⟩)) := by
  induction l with
  | nil => rfl
  | cons a l ih => simp [redirectOut, ih]

theorem redirectIn_ok (s : ℕ) (l : List (Arc F)) :
    redirectIn (some s) l = .ok (l.map (fun a => ⟨a.start, s, a.weight⟩)) := by
  induction l with
  | nil => rfl
  | cons a l ih => simp [redirectIn, ih]

theorem any_sameKey (g : Graph F) (a : Arc F) :
    (g.arcs.any (fun b => b.sameKey a) = true) ↔ a.key ∈ g.keys := by
  simp only [List.any_eq_true, Arc.sameKey_iff, keys, List.mem_map]

theorem removeArcs_ok (l : List (Arc F)) (g : Graph F) (hn : (l.map Arc.key).Nodup)
    (hm : ∀ a ∈ l, a.key ∈ g.keys) :
    removeArcs l g = ({ g with arcs := g.arcs.filter (fun b => b.key ∉ l.map Arc.key) }, none) := by
  induction l generalizing g with
  | nil => simp [removeArcs]
  | cons a l ih =>
    rw [List.map_cons, List.nodup_cons] at hn
    simp only [removeArcs]
    rw [if_pos ((any_sameKey g a).2 (hm a List.mem_cons_self)), ih _ hn.2]
    · simp only [List.filter_filter]
      congr 2
      apply List.filter_congr
      intro b _
      have : b.sameKey a = decide (b.key = a.key) := by
        rw [Bool.eq_iff_iff]; simp [Arc.sameKey_iff]
      rw [this]
      by_cases h : b.key = a.key <;> simp [h]
    · intro b hb
      have hbk := hm b (List.mem_cons_of_mem _ hb)
      obtain ⟨c, hc, hck⟩ := List.mem_map.1 hbk
      refine List.mem_map.2 ⟨c, List.mem_filter.2 ⟨hc, ?_⟩, hck⟩
      have hne : c.key ≠ a.key := by
        rw [hck]; intro he; exact hn.1 (he ▸ List.mem_map.2 ⟨b, hb, rfl⟩)
      cases hs : c.sameKey a with
      | false => simp
      | true => exact absurd ((Arc.sameKey_iff c a).1 hs) hne

theorem removeArcs_err (l : List (Arc F)) (g : Graph F) :
    ((removeArcs l g).2 = none → (l.map Arc.key).Nodup ∧ ∀ a ∈ l, a.key ∈ g.keys)
    ∧ ((removeArcs l g).2 = none ∨ (removeArcs l g).2 = some .keyError) := by
  induction l generalizing g with
  | nil => simp [removeArcs]
  | cons a l ih =>
    simp only [removeArcs]
    by_cases h : g.arcs.any (fun b => b.sameKey a) = true
    · rw [if_pos h]
      have ih' := ih { g with arcs := g.arcs.filter (fun b => !b.sameKey a) }
      refine ⟨fun hnone => ?_, ih'.2⟩
      obtain ⟨h1, h2⟩ := ih'.1 hnone
      have hfilt : ∀ b ∈ l, b.key ∈ g.keys ∧ b.key ≠ a.key := by
        intro b hb
        obtain ⟨c, hc, hck⟩ := List.mem_map.1 (h2 b hb)
        have := List.mem_filter.1 hc
        refine ⟨hck ▸ List.mem_map.2 ⟨c, this.1, rfl⟩, ?_⟩
        intro he
        have h3 : c.sameKey a = true := (Arc.sameKey_iff c a).2 (hck.trans he)
        have h4 := this.2
        rw [h3] at h4
        cases h4
      constructor
      · rw [List.map_cons, List.nodup_cons]
        refine ⟨?_, h1⟩
        intro hm
        obtain ⟨b, hb, hbk⟩ := List.mem_map.1 hm
        exact (hfilt b hb).2 hbk
      · intro b hb
        rcases List.mem_cons.1 hb with rfl | hb
        · exact (any_sameKey g b).1 h
        · exact (hfilt b hb).1
    · rw [if_neg h]
      exact ⟨fun h => (by cases h), Or.inr rfl⟩

theorem redirectOut_err (e : Option ℕ) (l : List (Arc F)) (x : Err)
    (h : redirectOut e l = .error x) : x = .keyError := by
  induction l with
  | nil => cases h
  | cons a l ih =>
    cases e with
    | none => simp [redirectOut] at h; exact h.symm
    | some e => rw [redirectOut_ok] at h; cases h

theorem redirectIn_err (e : Option ℕ) (l : List (Arc F)) (x : Err)
    (h : redirectIn e l = .error x) : x = .keyError := by
  induction l with
  | nil => cases h
  | cons a l ih =>
    cases e with
    | none => simp [redirectIn] at h; exact h.symm
    | some e => rw [redirectIn_ok] at h; cases h

theorem copyArcs_err (m : List (ℕ × ℕ)) (as : List (Arc F)) (g : Graph F) :
    ((copyArcs m as g).2 = none ∨ (copyArcs m as g).2 = some .keyError)
    ∧ ∀ a ∈ g.arcs, a ∈ (copyArcs m as g).1.arcs := by
  induction as generalizing g with
  | nil => exact ⟨Or.inl rfl, fun a h => h⟩
  | cons a as ih =>
    simp only [copyArcs]
    split
    · rename_i s e _ _
      refine ⟨(ih _).1, fun b hb => (ih _).2 b ?_⟩
      rw [addArc_eq]
      split
      · exact hb
      · exact List.mem_append_left _ hb
    · exact ⟨Or.inr rfl, fun a h => h⟩

end Graph
end Verif
