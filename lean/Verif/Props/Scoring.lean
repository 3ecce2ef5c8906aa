import Verif.Lemmas.Scoring

/-!
# C53 – C56, C72: scoring of transcriptions and boundaries
-/

namespace Verif.Props

open Verif.Scoring Verif.Spec

variable {α : Type} [DecidableEq α]

/-! ## C53 -/

/-- The count is reached by a sequence of edits and no shorter sequence of edits exists. -/
theorem C53_minimum (r h : List α) : IsLeast {n | Edits n r h} (wer r h) := by
  rw [wer_eq]; exact lev_isLeast r h

example : wer ["who", "is", "there"] ["is", "there"] = 1 := by decide
example : wer [1, 2, 3, 4] [2, 3, 5, 4, 4] = 3 := by decide

theorem C53_symmetric (r h : List α) : wer r h = wer h r := by
  refine (C53_minimum r h).unique ⟨edits_symm (C53_minimum h r).1, fun n hn => ?_⟩
  exact (C53_minimum h r).2 (edits_symm hn)

example : wer [1, 2, 3] [3] = 2 ∧ wer [3] [1, 2, 3] = 2 := by decide

theorem C53_triangle (a b c : List α) : wer a c ≤ wer a b + wer b c :=
  (C53_minimum a c).2 (edits_trans (C53_minimum a b).1 (C53_minimum b c).1)

example : wer [1, 2] [3] = 2 ∧ wer [1, 2] [1, 3] = 1 ∧ wer [1, 3] [3] = 1 := by decide

theorem C53_zero_iff (r h : List α) : wer r h = 0 ↔ r = h := by
  constructor
  · intro h0
    have := (C53_minimum r h).1
    rw [h0] at this
    exact edits_zero this
  · rintro rfl
    exact Nat.le_zero.mp ((C53_minimum r r).2 (Edits.refl r))

example : wer [1, 2] [1, 2] = 0 ∧ wer [1, 2] [2, 1] ≠ 0 := by decide

theorem C53_bounds (r h : List α) :
    r.length ≤ h.length + wer r h ∧ h.length ≤ r.length + wer r h ∧
      wer r h ≤ max r.length h.length := by
  refine ⟨edits_length (C53_minimum r h).1, edits_length (edits_symm (C53_minimum r h).1), ?_⟩
  rw [wer_eq]
  have key : ∀ (N : ℕ) (a b : List α), a.length + b.length ≤ N → lev a b ≤ max a.length b.length := by
    intro N
    induction N with
    | zero =>
      intro a b hN
      have ha : a = [] := List.length_eq_zero_iff.mp (by omega)
      subst ha
      rw [lev_nil_left]; exact le_max_right _ _
    | succ N ih =>
      intro a b hN
      cases a with
      | nil => rw [lev_nil_left]; exact le_max_right _ _
      | cons x a =>
        cases b with
        | nil => rw [lev_nil_right]; exact le_max_left _ _
        | cons y b =>
          simp only [List.length_cons] at hN ⊢
          have := ih a b (by omega)
          rw [lev_three_way]
          split_ifs <;> omega
  exact key _ r h le_rfl

example : wer [1, 2, 3] [4, 5] = 3 ∧ wer [1, 2, 3] [1, 2] = 1 := by decide

/-! ## C54 -/

theorem C54_scripts_agree (r h : List α) : timitErrors r h = wer r h := by
  rw [timit_eq, wer_eq]

example : timitErrors [1, 2, 3, 4] [2, 3, 5, 4, 4] = 3 := by decide

/-! ## C55 -/

/-- The hits are the size of a one-to-one matching of boundaries at most `delta` apart which no further
pair can extend. -/
theorem C55_matching (ref hyp : List ℤ) (delta : ℤ) (n : ℕ)
    (hsentinel : ∀ b ∈ hyp, b + delta < 1000000) (h : getHits ref hyp delta = .ok n) :
    ∃ M, M.length = n ∧ Matching ref hyp delta M ∧ MaximalMatching ref hyp delta M := by
  have := hitsLoop_matching delta ref hyp [] ref [] n hsentinel
    ⟨by simp, by simp, by simp⟩ (by intro i j r b _ h2; simp at h2) (by simp) (by simp) h
  simpa using this

example : getHits [4, 9, 20] [5, 6, 21, 30] 2 = .ok 2 := by decide

/-- Precision and recall are at most one. -/
theorem C55_counts (ref hyp : List ℤ) (delta : ℤ) (n : ℕ)
    (hsentinel : ∀ b ∈ hyp, b + delta < 1000000) (h : getHits ref hyp delta = .ok n) :
    n ≤ ref.length ∧ n ≤ hyp.length := by
  obtain ⟨M, rfl, hM, _⟩ := C55_matching ref hyp delta n hsentinel h
  exact matching_le hM

/-- Two hypothesised boundaries next to a single reference boundary count once. -/
example : getHits [10] [9, 10, 11] 2 = .ok 1 := by decide

/-- At the sentinel value the count exceeds the number of reference boundaries. -/
theorem C55_sentinel_needed : getHits [1000000] [999999, 1000000] 2 = .ok 2 := by decide

/-- The call fails exactly when there is no reference boundary and some hypothesised one. -/
theorem C55_fails_iff (ref hyp : List ℤ) (delta : ℤ) :
    getHits ref hyp delta = .error .valueError ↔ ref = [] ∧ hyp ≠ [] := by
  constructor
  · intro h
    by_cases hr : ref = []
    · refine ⟨hr, ?_⟩
      rintro rfl
      cases h
    · obtain ⟨n, hn⟩ := hitsLoop_ok delta hyp ref 0 hr
      rw [getHits, hn] at h
      cases h
  · rintro ⟨rfl, hh⟩
    cases hyp with
    | nil => exact absurd rfl hh
    | cons b hyp => rfl

theorem C55_succeeds (ref hyp : List ℤ) (delta : ℤ) (h : ref ≠ [] ∨ hyp = []) :
    ∃ n, getHits ref hyp delta = .ok n := by
  rcases h with h | rfl
  · exact hitsLoop_ok delta hyp ref 0 h
  · exact ⟨0, rfl⟩

example : getHits [] [7] 2 = .error .valueError ∧ getHits [] [] 2 = .ok 0 := by decide

/-- The boundaries of a frame labelling are the (one-based) frames whose label differs from the label of
the frame before. -/
theorem C55_boundaries (u : List α) (L : List ℤ) (h : boundaries u = .ok L) (b : ℤ) :
    b ∈ L ↔ ∃ k : ℕ, b = k + 2 ∧ ∃ x y, u[k]? = some x ∧ u[k + 1]? = some y ∧ x ≠ y := by
  cases u with
  | nil => cases h
  | cons v us =>
    rw [← Except.ok.inj h, boundariesLoop_mem]
    simp only [List.getElem?_cons_succ, add_comm (2 : ℤ)]

theorem C55_boundaries_sorted (u : List α) (L : List ℤ) (h : boundaries u = .ok L) :
    L.Pairwise (· < ·) := by
  cases u with
  | nil => cases h
  | cons v us =>
    rw [← Except.ok.inj h]
    exact boundariesLoop_sorted us v 2

example : boundaries ["a", "a", "b", "b", "a"] = .ok [3, 5] := by decide
example : boundaries ([] : List String) = .error .indexError := by decide

/-! ## C56 -/

/-- The alternative script counts two hits for one hypothesised boundary. -/
theorem C56_more_hits_than_hypotheses :
    ∃ ref hyp : List ℤ, getHits2 ref hyp 2 = .ok 2 ∧ hyp.length = 1 :=
  ⟨[10, 11], [10], by decide, rfl⟩

/-- Missing from the property: the bound by the number of hypothesised boundaries, which is false. -/
theorem C56_bound_by_reference_partial (ref hyp : List ℤ) (delta : ℤ) (n : ℕ)
    (h : getHits2 ref hyp delta = .ok n) : n ≤ ref.length := by
  have := hits2Loop_le delta hyp ref.length 0 ref 0 n h
  omega

example : getHits2 [10, 30] [11, 20] 2 = .ok 1 := by decide

/-- The sentinel is written at the position of the closest hypothesised boundary, which can be outside of
the reference. -/
theorem C56_index_error : getHits2 [10] [1, 10] 2 = .error .indexError := by decide

/-- … or erase a reference boundary not yet read: an exact match is lost. -/
theorem C56_erases_reference :
    getHits2 [10, 20] [0, 10, 20] 2 = .ok 1 ∧ getHits [10, 20] [0, 10, 20] 2 = .ok 2 := by decide

/-! ## C72 -/

theorem C72_no_repeat (l : List α) : NoRepeat (collapse l) := (groupbyKeys_isChain l none).1

theorem C72_idempotent (l : List α) : collapse (collapse l) = collapse l :=
  groupbyKeys_of_chain _ _ (groupbyKeys_isChain l none).1 (by simp)

theorem C72_fixed_iff (l : List α) : collapse l = l ↔ NoRepeat l :=
  ⟨fun h => h ▸ C72_no_repeat l, fun h => groupbyKeys_of_chain l none h (by simp)⟩

/-- Durations do not matter. -/
theorem C72_expand (s : List (α × ℕ)) : collapse (expand s) = collapse (s.map Prod.fst) :=
  groupbyKeys_expand s none

/-- The frames are the collapsed labels repeated for some durations: nothing else is lost. -/
theorem C72_durations (l : List α) : ∃ s, s.map Prod.fst = collapse l ∧ l = expand s := by
  obtain ⟨n, s, h1, h2⟩ := groupbyKeys_segments l none
  exact ⟨s, h1, by simpa using h2⟩

/-- The list comprehension of the TIMIT script does the same as `groupby`. -/
theorem C72_dedup (l : List α) : dedup l = collapse l := dedup_eq_collapse l

example : collapse ["a", "a", "b", "b", "a"] = ["a", "b", "a"] := by decide
example : dedup [1, 1, 2, 2, 2, 1, 3, 3] = [1, 2, 1, 3] := by decide
example : expand [("a", 1), ("b", 0)] = ["a", "a", "b"] := by decide

end Verif.Props
