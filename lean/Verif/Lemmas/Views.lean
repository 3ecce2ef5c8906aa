import Verif.Spec.Views
import Verif.Lemmas.Eval

namespace Verif.Views

open Verif Pipeline ViewsSpec

variable {V : Type}

theorem position_ok {n : ℕ} {k : ℤ} {i : ℕ} (h : position n k = .ok i) :
    i < n ∧ (i : ℤ) = if k < 0 then k + n else k := by
  unfold position at h
  split at h
  · rename_i h0
    simp only [Except.ok.injEq] at h
    subst h
    rw [if_neg (by omega)]
    omega
  · split at h
    · rename_i h0
      simp only [Except.ok.injEq] at h
      subst h
      rw [if_pos h0.2]
      omega
    · simp at h

theorem position_iff (n : ℕ) (k : ℤ) (i : ℕ) :
    position n k = .ok i ↔ i < n ∧ (i : ℤ) = if k < 0 then k + n else k := by
  refine ⟨position_ok, fun ⟨h1, h2⟩ => ?_⟩
  unfold position
  by_cases hk : k < 0
  · rw [if_pos hk] at h2
    rw [if_neg (by omega), if_pos (by omega)]
    congr 1
    omega
  · rw [if_neg hk] at h2
    rw [if_pos (by omega)]
    congr 1
    omega

theorem position_error (n : ℕ) (k : ℤ) (h : ¬ (-(n : ℤ) ≤ k ∧ k < n)) : position n k = .error .indexError := by
  unfold position
  rw [if_neg (by omega), if_neg (by omega)]

theorem rowAt_ok (rows : List V) (k : ℤ) (i : ℕ) (hi : i < rows.length)
    (hk : (i : ℤ) = if k < 0 then k + rows.length else k) : rowAt rows k = .ok rows[i] := by
  unfold rowAt
  rw [(position_iff _ _ _).2 ⟨hi, hk⟩]
  dsimp only
  rw [List.getElem?_eq_getElem hi]

theorem rowAt_error (rows : List V) (k : ℤ) (h : ¬ (-(rows.length : ℤ) ≤ k ∧ k < rows.length)) :
    rowAt rows k = .error .indexError := by
  unfold rowAt
  rw [position_error _ _ h]

/-! ## States -/

theorem InHeap.mono {n m : ℕ} (h : n ≤ m) : ∀ r, InHeap n r → InHeap m r
  | .own _, hr => lt_of_lt_of_le hr h
  | .view r _, hr => InHeap.mono h r hr

theorem attr_append (heap : List (Params V)) (new : Params V) (r : PRef) (hr : InHeap heap.length r)
    (name : String) : attr (heap ++ [new]) r name = attr heap r name := by
  induction r with
  | own l =>
    unfold attr
    rw [List.getElem?_append_left hr]
  | view r k ih =>
    unfold attr
    rw [ih hr]

theorem valid_run (s : State V) (h : Valid s) (op : Op V) : Valid (s.run op) := by
  cases op with
  | getitem d key =>
    unfold State.run
    dsimp only
    split
    · exact h
    · rename_i ref hd
      intro r hr
      rcases List.mem_append.1 hr with hr | hr
      · exact h r hr
      · rw [List.mem_singleton] at hr
        subst hr
        exact h ref (List.mem_of_getElem? hd)
  | update d new =>
    intro r hr
    unfold State.run at hr ⊢
    dsimp only at hr ⊢
    rw [List.length_append, List.length_singleton]
    rcases List.mem_or_eq_of_mem_set hr with hr | rfl
    · exact InHeap.mono (by omega) r (h r hr)
    · exact Nat.lt_succ_self _
  | step loc new =>
    intro r hr
    unfold State.run at hr ⊢
    dsimp only at hr ⊢
    rw [List.length_set]
    exact h r hr

theorem valid_runAll (s : State V) (h : Valid s) (ops : List (Op V)) : Valid (s.runAll ops) := by
  induction ops generalizing s with
  | nil => exact h
  | cons op ops ih => exact ih _ (valid_run s h op)

theorem dists_run (s : State V) (op : Op V) (e : ℕ) (he : e < s.dists.length)
    (hop : ∀ new, op ≠ .update e new) : (s.run op).dists[e]? = s.dists[e]? := by
  cases op with
  | getitem d key =>
    unfold State.run
    dsimp only
    split
    · rfl
    · exact List.getElem?_append_left he
  | update d new =>
    unfold State.run
    dsimp only
    rw [List.getElem?_set_ne]
    rintro rfl
    exact hop new rfl
  | step loc new => rfl

theorem dists_run_length (s : State V) (op : Op V) : s.dists.length ≤ (s.run op).dists.length := by
  cases op with
  | getitem d key =>
    unfold State.run
    dsimp only
    split
    · exact le_refl _
    · simp
  | update d new => simp [State.run]
  | step loc new => exact le_refl _

theorem dists_runAll (s : State V) (ops : List (Op V)) (e : ℕ) (he : e < s.dists.length)
    (hop : ∀ new, .update e new ∉ ops) : (s.runAll ops).dists[e]? = s.dists[e]? := by
  induction ops generalizing s with
  | nil => rfl
  | cons op ops ih =>
    show ((s.run op).runAll ops).dists[e]? = _
    rw [ih _ (lt_of_lt_of_le he (dists_run_length s op)) fun new h => hop new (List.mem_cons_of_mem _ h),
      dists_run s op e he]
    rintro new rfl
    exact hop new List.mem_cons_self

theorem read_run (s : State V) (h : Valid s) (op : Op V) (e : ℕ) (he : e < s.dists.length)
    (hu : ∀ new, op ≠ .update e new) (hs : ∀ l new, op ≠ .step l new) (name : String) :
    (s.run op).read e name = s.read e name := by
  unfold State.read
  rw [dists_run s op e he hu]
  cases hd : s.dists[e]? with
  | none => rfl
  | some r =>
    dsimp only
    cases op with
    | getitem d key =>
      unfold State.run
      dsimp only
      split <;> rfl
    | update d new =>
      unfold State.run
      dsimp only
      exact attr_append _ _ _ (h r (List.mem_of_getElem? hd)) name
    | step l new => exact absurd rfl (hs l new)

end Verif.Views
