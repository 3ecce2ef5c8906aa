import Verif.Spec.Scripts
import Verif.Model.Scripts
import Verif.Lemmas.Eval
import Mathlib.Tactic.FieldSimp
import Mathlib.Tactic.Ring
import Mathlib.Tactic.Linarith

namespace Verif.Scripts

open Verif Pipeline ScriptSpec

/-! ## Runs -/

theorem segments_cons_ne (xs : List String) (i : ℕ) (x : String) : segments (x :: xs) i ≠ [] := by
  unfold segments
  split
  · simp
  · split <;> simp

/-- The first run begins at the first frame, and carries its label. -/
theorem segments_head (xs : List String) (i : ℕ) (x : String) :
    ∃ b rest, segments (x :: xs) i = (x, i, b) :: rest := by
  unfold segments
  split
  · exact ⟨_, _, rfl⟩
  · split
    · exact ⟨_, _, rfl⟩
    · exact ⟨_, _, rfl⟩

theorem segments_bounds (xs : List String) (i : ℕ) (s : String × ℕ × ℕ) (h : s ∈ segments xs i) :
    i ≤ s.2.1 ∧ s.2.1 < s.2.2 ∧ s.2.2 ≤ i + xs.length ∧
      ∀ j, s.2.1 ≤ j → j < s.2.2 → xs[j - i]? = some s.1 := by
  induction xs generalizing i s with
  | nil => simp [segments] at h
  | cons x xs ih =>
    have tail : ∀ t ∈ segments xs (i + 1), i ≤ t.2.1 ∧ t.2.1 < t.2.2 ∧ t.2.2 ≤ i + (x :: xs).length ∧
        ∀ j, t.2.1 ≤ j → j < t.2.2 → (x :: xs)[j - i]? = some t.1 := by
      intro t ht
      obtain ⟨h1, h2, h3, h4⟩ := ih (i + 1) t ht
      refine ⟨by omega, h2, by simp; omega, fun j hj1 hj2 => ?_⟩
      have := h4 j hj1 hj2
      rw [show j - i = (j - (i + 1)) + 1 by omega, List.getElem?_cons_succ]
      exact this
    unfold segments at h
    cases hs : segments xs (i + 1) with
    | nil =>
      rw [hs] at h
      simp only [List.mem_singleton] at h
      subst h
      refine ⟨le_rfl, Nat.lt_succ_self i, by simp, fun j h1 h2 => ?_⟩
      dsimp only at h1 h2
      rw [show j - i = 0 by omega]
      rfl
    | cons t rest =>
      rw [hs] at h tail
      obtain ⟨y, a, b⟩ := t
      dsimp only at h
      have ha : a = i + 1 ∧ xs.head? = some y := by
        cases xs with
        | nil => simp [segments] at hs
        | cons z zs =>
          obtain ⟨b', rest', he⟩ := segments_head zs (i + 1) z
          rw [hs] at he
          simp only [List.cons.injEq, Prod.mk.injEq] at he
          exact ⟨he.1.2.1, by simp [he.1.1]⟩
      split at h
      · rename_i hxy
        rw [List.mem_cons] at h
        rcases h with rfl | h
        · obtain ⟨h1, h2, h3, h4⟩ := tail (y, a, b) List.mem_cons_self
          dsimp only at h1 h2 h3 h4 ⊢
          refine ⟨le_rfl, by omega, h3, fun j hj1 hj2 => ?_⟩
          rcases Nat.eq_or_lt_of_le hj1 with rfl | hlt
          · simp
          · rw [h4 j (by omega) hj2, hxy]
        · exact tail s (List.mem_cons_of_mem _ h)
      · rw [List.mem_cons] at h
        rcases h with rfl | h
        · refine ⟨le_rfl, Nat.lt_succ_self i, by simp, fun j h1 h2 => ?_⟩
          dsimp only at h1 h2
          rw [show j - i = 0 by omega]
          rfl
        · exact tail s h

/-- Nothing is left out: every frame is in a run, and the frame after a run has another label. -/
theorem segments_cover (xs : List String) (i j : ℕ) (hj : i ≤ j) (hj2 : j < i + xs.length) :
    ∃ s ∈ segments xs i, s.2.1 ≤ j ∧ j < s.2.2 := by
  induction xs generalizing i with
  | nil => simp at hj2; omega
  | cons x xs ih =>
    rcases Nat.eq_or_lt_of_le hj with rfl | hlt
    · obtain ⟨b, rest, h⟩ := segments_head xs i x
      refine ⟨(x, i, b), by rw [h]; exact List.mem_cons_self, le_rfl, ?_⟩
      exact (segments_bounds (x :: xs) i (x, i, b) (by rw [h]; exact List.mem_cons_self)).2.1
    · obtain ⟨s, hs, h1, h2⟩ := ih (i + 1) hlt (by simp at hj2; omega)
      unfold segments
      cases hh : segments xs (i + 1) with
      | nil => rw [hh] at hs; simp at hs
      | cons t rest =>
        rw [hh] at hs
        obtain ⟨y, a, b⟩ := t
        dsimp only
        split
        · rw [List.mem_cons] at hs
          rcases hs with rfl | hs
          · exact ⟨(x, i, b), List.mem_cons_self, by dsimp only; omega, h2⟩
          · exact ⟨s, List.mem_cons_of_mem _ hs, h1, h2⟩
        · exact ⟨s, List.mem_cons_of_mem _ hs, h1, h2⟩

theorem segments_next (xs : List String) (i : ℕ) (s : String × ℕ × ℕ) (h : s ∈ segments xs i)
    (hb : s.2.2 < i + xs.length) : ∃ l, xs[s.2.2 - i]? = some l ∧ l ≠ s.1 := by
  induction xs generalizing i s with
  | nil => simp [segments] at h
  | cons x xs ih =>
    have tail : ∀ t ∈ segments xs (i + 1), t.2.2 < i + (x :: xs).length →
        ∃ l, (x :: xs)[t.2.2 - i]? = some l ∧ l ≠ t.1 := by
      intro t ht htb
      obtain ⟨l, h1, h2⟩ := ih (i + 1) t ht (by simp at htb; omega)
      have h3 := (segments_bounds xs (i + 1) t ht)
      refine ⟨l, ?_, h2⟩
      rw [show t.2.2 - i = (t.2.2 - (i + 1)) + 1 by omega, List.getElem?_cons_succ]
      exact h1
    unfold segments at h
    cases hs : segments xs (i + 1) with
    | nil =>
      rw [hs] at h
      simp only [List.mem_singleton] at h
      subst h
      cases xs with
      | nil => simp at hb
      | cons z zs => exact absurd hs (segments_cons_ne zs (i + 1) z)
    | cons t rest =>
      rw [hs] at h tail
      obtain ⟨y, a, b⟩ := t
      dsimp only at h
      split at h
      · rename_i hxy
        rw [List.mem_cons] at h
        rcases h with rfl | h
        · obtain ⟨l, h1, h2⟩ := tail (y, a, b) List.mem_cons_self hb
          exact ⟨l, h1, by rw [hxy]; exact h2⟩
        · exact tail s (List.mem_cons_of_mem _ h) hb
      · rename_i hxy
        rw [List.mem_cons] at h
        rcases h with rfl | h
        · cases xs with
          | nil => simp at hb
          | cons z zs =>
            obtain ⟨b', rest', he⟩ := segments_head zs (i + 1) z
            rw [hs] at he
            simp only [List.cons.injEq, Prod.mk.injEq] at he
            refine ⟨z, by simp, ?_⟩
            rw [← he.1.1]
            exact Ne.symm hxy
        · exact tail s h hb

theorem segments_labels (xs : List String) (i : ℕ) :
    (segments xs i).map Prod.fst = xs.destutter (· ≠ ·) := by
  induction xs generalizing i with
  | nil => rfl
  | cons x xs ih =>
    cases xs with
    | nil => rfl
    | cons z zs =>
      obtain ⟨b, rest, h⟩ := segments_head zs (i + 1) z
      have ih := ih (i + 1)
      rw [h] at ih
      unfold segments
      rw [h]
      dsimp only
      by_cases hxz : x = z
      · subst hxz
        rw [if_pos rfl]
        rw [List.map_cons] at ih ⊢
        rw [ih]
        simp [List.destutter, List.destutter']
      · rw [if_neg hxz, List.map_cons, ih]
        simp [List.destutter, List.destutter', hxz]

/-! ## `get_cf` -/

/-- The frame taken for a run. -/
def cfOf (n : ℕ) (s : String × ℕ × ℕ) : String × ℕ :=
  (s.1, ((if s.2.1 = 0 then 0 else s.2.1 + 1) + (if s.2.2 = n then n - 1 else s.2.2)) / 2)

theorem cfLoop_ok (m : List (ℕ × String)) (f : ℕ → String) (ali : List ℕ)
    (h : ∀ x ∈ ali, dictGet m x = .ok (f x)) (i start : ℕ) (prev : String) (cfs : List (String × ℕ))
    (n : ℕ) (hn : n = i + ali.length) (hi : 0 < i) (a : ℕ) (ha : a < i)
    (hs : start = if a = 0 then 0 else a + 1) :
    ∃ st lab out, cfLoop m ali i start prev cfs = .ok (st, lab, out) ∧
      out ++ [(lab, (st + (n - 1)) / 2)] = cfs ++
        (match segments (ali.map f) i with
          | [] => [cfOf n (prev, a, n)]
          | (y, c, b) :: rest => if y = prev then ((prev, a, b) :: rest).map (cfOf n)
            else ((prev, a, i) :: (y, c, b) :: rest).map (cfOf n)) := by
  induction ali generalizing i start prev cfs a with
  | nil =>
    refine ⟨start, prev, cfs, rfl, ?_⟩
    simp only [List.map_nil, segments, cfOf, if_true, hs]
  | cons x ali ih =>
    have hx := h x List.mem_cons_self
    have htl : ∀ y ∈ ali, dictGet m y = .ok (f y) := fun y hy => h y (List.mem_cons_of_mem _ hy)
    simp only [List.length_cons] at hn
    rw [cfLoop, hx]
    dsimp only
    by_cases hl : f x = prev
    · rw [if_neg (not_not.2 hl)]
      obtain ⟨st, lab, out, h1, h2⟩ := ih htl (i + 1) start prev cfs (by omega) (by omega) a (by omega) hs
      refine ⟨st, lab, out, h1, ?_⟩
      rw [h2]
      congr 1
      rw [List.map_cons, segments]
      cases hseg : segments (ali.map f) (i + 1) with
      | nil =>
        have : ali = [] := by
          cases ali with
          | nil => rfl
          | cons z zs => exact absurd hseg (segments_cons_ne _ _ _)
        subst this
        simp only [hl, if_true, List.map_cons, List.map_nil]
        rw [hn]; rfl
      | cons t rest =>
        obtain ⟨y, c, b⟩ := t
        dsimp only
        by_cases hy : y = prev
        · simp only [hy, hl, if_true]
        · rw [if_neg hy, hl, if_neg (Ne.symm hy)]
          dsimp only
          rw [if_pos rfl]
    · rw [if_pos hl]
      obtain ⟨st, lab, out, h1, h2⟩ := ih htl (i + 1) (i + 1) (f x) (cfs ++ [(prev, (start + i) / 2)])
        (by omega) (by omega) i (by omega) (by rw [if_neg (by omega)])
      refine ⟨st, lab, out, h1, ?_⟩
      rw [h2, List.append_assoc]
      congr 1
      rw [List.map_cons, segments]
      have hfirst : cfOf n (prev, a, i) = (prev, (start + i) / 2) := by
        unfold cfOf
        dsimp only
        rw [if_neg (show ¬ i = n by omega), ← hs]
      cases hseg : segments (ali.map f) (i + 1) with
      | nil =>
        have : ali = [] := by
          cases ali with
          | nil => rfl
          | cons z zs => exact absurd hseg (segments_cons_ne _ _ _)
        subst this
        simp only [hl, if_false, List.map_cons, List.map_nil, hfirst]
        rw [hn]; rfl
      | cons t rest =>
        obtain ⟨y, c, b⟩ := t
        dsimp only
        by_cases hy : f x = y
        · simp only [hy, if_true]
          rw [if_neg (by rw [← hy]; exact hl)]
          simp only [List.map_cons, hfirst, List.singleton_append]
        · rw [if_neg (Ne.symm hy), if_neg hy]
          dsimp only
          rw [if_neg hl]
          simp only [List.map_cons, hfirst, List.singleton_append]

theorem getCf_ok (m : List (ℕ × String)) (f : ℕ → String) (ali : List ℕ) (hne : ali ≠ [])
    (h : ∀ x ∈ ali, dictGet m x = .ok (f x)) :
    getCf ali m = .ok ((segments (ali.map f) 0).map (cfOf ali.length)) := by
  cases ali with
  | nil => exact absurd rfl hne
  | cons x ali =>
    have hx := h x List.mem_cons_self
    unfold getCf
    dsimp only
    rw [hx]
    dsimp only
    rw [cfLoop, hx]
    dsimp only
    rw [if_neg (by simp)]
    obtain ⟨st, lab, out, h1, h2⟩ := cfLoop_ok m f ali (fun y hy => h y (List.mem_cons_of_mem _ hy)) 1 0 (f x) []
      (x :: ali).length (by simp; omega) (by omega) 0 (by omega) (by simp)
    rw [h1]
    dsimp only
    rw [h2]
    rw [List.nil_append, List.map_cons, segments]
    cases hseg : segments (ali.map f) (0 + 1) with
    | nil =>
      have : ali = [] := by
        cases ali with
        | nil => rfl
        | cons z zs => exact absurd hseg (segments_cons_ne _ _ _)
      subst this
      rfl
    | cons t rest =>
      obtain ⟨y, c, b⟩ := t
      dsimp only
      by_cases hy : y = f x
      · rw [if_pos hy, if_pos hy.symm]
      · rw [if_neg hy, if_neg (Ne.symm hy)]

theorem cfLoop_error (m : List (ℕ × String)) (ali : List ℕ) (h : ∃ x ∈ ali, dictGet m x = .error .keyError)
    (i start : ℕ) (prev : String) (cfs : List (String × ℕ)) :
    cfLoop m ali i start prev cfs = .error .keyError := by
  induction ali generalizing i start prev cfs with
  | nil => simp at h
  | cons x ali ih =>
    rw [cfLoop]
    cases hx : dictGet m x with
    | error e =>
      have : e = .keyError := by
        unfold dictGet at hx
        split at hx
        · cases hx
        · cases hx; rfl
      rw [this]
    | ok l =>
      dsimp only
      have h' : ∃ y ∈ ali, dictGet m y = .error .keyError := by
        obtain ⟨y, hy, h1⟩ := h
        rw [List.mem_cons] at hy
        rcases hy with rfl | hy
        · rw [hx] at h1; cases h1
        · exact ⟨y, hy, h1⟩
      split
      · exact ih h' _ _ _ _
      · exact ih h' _ _ _ _

end Verif.Scripts
