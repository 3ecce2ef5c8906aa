import Verif.Lemmas.Jacobian
import Mathlib.Algebra.BigOperators.Fin
import Mathlib.Algebra.Order.BigOperators.Group.Finset
import Mathlib.Algebra.Order.Field.Basic
import Mathlib.Algebra.Order.BigOperators.Group.List
import Mathlib.Algebra.Field.Rat
import Mathlib.Algebra.Order.Ring.Rat
import Mathlib.Data.List.GetD
import Mathlib.Tactic.Ring
import Mathlib.Tactic.NormNum
import Mathlib.Tactic.Positivity

/-!
# C165: Jacobian matrices and the outer product approximation of Hessian matrices
-/

namespace Verif.Props

open Verif Jacobian JacobianSpec

section Jacobians

variable {K : Type} [Field K] {m : ℕ} {size : Fin m → ℕ}

/-- C165, what holds: when the first output depends on all the inputs, the row of an output is the sum of its gradient and of
those of all the outputs before it.  Missing for the property: the gradients of the earlier outputs should not be there.  The
gradients of the inputs are left with the sum of all. -/
theorem C165_jacobians_partial (out : (j : Fin m) → Grad K (size j)) (outs : List ((j : Fin m) → Grad K (size j)))
    (h : ∀ j, out j ≠ none) :
    ∃ r, jacobians (out :: outs) = .ok (r, fun j => some (((out :: outs).map gradient).sum j)) ∧
      r.length = (out :: outs).length ∧
      ∀ i < (out :: outs).length, r.getD i 0 = (((out :: outs).take (i + 1)).map gradient).sum := by
  have e : (fun j => addGrad none (out j)) = fun j => some (gradient out j) := by
    funext j
    cases ej : out j with
    | none => exact absurd ej (h j)
    | some g => simp [addGrad, gradient, ej]
  have hj : jacobians (out :: outs) =
      .ok (prefixSums 0 (out :: outs), fun j => some (((out :: outs).map gradient).sum j)) := by
    have e2 : (fun j => (addGrad none (out j)).getD 0) = gradient out :=
      funext fun j => by
        have := congrFun e j
        rw [this]; rfl
    unfold jacobians jacLoop
    dsimp only
    rw [e, e2, rows_ok _ (fun j => by simp)]
    dsimp only
    rw [jacLoop_ok]
    simp [prefixSums]
  exact ⟨_, hj, prefixSums_length _ _, fun i hi => by rw [prefixSums_getD _ _ _ hi, zero_add]⟩

/-- C165: the matrices are the Jacobian ones exactly when, before every output but the first, the gradients sum to zero; for
instance when there is one output. -/
theorem C165_when (out : (j : Fin m) → Grad K (size j)) (outs : List ((j : Fin m) → Grad K (size j)))
    (h : ∀ j, out j ≠ none) :
    (∃ g, jacobians (out :: outs) = .ok ((out :: outs).map gradient, g)) ↔
      ∀ i, 0 < i → i < (out :: outs).length → (((out :: outs).take i).map gradient).sum = 0 := by
  obtain ⟨r, h1, h2, h3⟩ := C165_jacobians_partial out outs h
  rw [h1]
  have key : ∀ i (hi : i < (out :: outs).length), r.getD i 0 =
      (((out :: outs).take i).map gradient).sum + gradient (out :: outs)[i] := by
    intro i hi
    rw [h3 i hi, List.take_succ_eq_append_getElem hi, List.map_append, List.sum_append, List.map_singleton,
      List.sum_singleton]
  constructor
  · rintro ⟨g, hg⟩ i hi hlt
    have hr : r = (out :: outs).map gradient := (Prod.mk.inj (Except.ok.inj hg)).1
    have := key i hlt
    rw [hr, List.getD_eq_getElem _ _ (by simpa using hlt), List.getElem_map] at this
    simpa using this
  · intro hz
    refine ⟨fun j => some (((out :: outs).map gradient).sum j), ?_⟩
    have hr : r = (out :: outs).map gradient := by
      refine List.ext_getElem (by rw [h2, List.length_map]) fun i hi1 hi2 => ?_
      have hlt : i < (out :: outs).length := by rw [← h2]; exact hi1
      have := key i hlt
      rw [List.getD_eq_getElem _ _ hi1] at this
      rw [this, List.getElem_map]
      rcases Nat.eq_zero_or_pos i with rfl | hp
      · simp
      · rw [hz i hp hlt, zero_add]
    rw [hr]

/-- C165: an exception when the first output does not depend on one of the inputs (the gradient should be zero). -/
theorem C165_missing (out : (j : Fin m) → Grad K (size j)) (outs : List ((j : Fin m) → Grad K (size j)))
    (h : ∃ j, out j = none) : jacobians (out :: outs) = .error .attributeError := by
  obtain ⟨j, hj⟩ := h
  unfold jacobians jacLoop
  dsimp only
  rw [rows_missing _ _ ⟨j, List.mem_finRange j, by rw [hj]; rfl⟩]

/-- The identity of the plane: the outputs are the two coordinates of the input. -/
def planeIdentity : List ((_ : Fin 1) → Grad ℚ 2) := [fun _ => some ![1, 0], fun _ => some ![0, 1]]

/-- The code violates the property: the Jacobian matrix of the identity is not the identity matrix; its second row is
`(1, 1)`. -/
theorem C165_wrong : jacobians planeIdentity = .ok ([fun _ => ![1, 0], fun _ => ![1, 1]], fun _ => some ![1, 1]) := by
  obtain ⟨r, h1, h2, h3⟩ := C165_jacobians_partial (K := ℚ) (m := 1) (size := fun _ => 2) (fun _ => some ![1, 0])
    [fun _ => some ![0, 1]] (fun _ => by simp)
  unfold planeIdentity
  rw [h1]
  have e0 := h3 0 (by simp)
  have e1 := h3 1 (by simp)
  match r, h2 with
  | [a, b], _ =>
    simp [gradient] at e0 e1
    subst e0 e1
    congr 1
    have e : (![1, 0] : Fin 2 → ℚ) + ![0, 1] = ![1, 1] := by decide +kernel
    refine Prod.ext ?_ (funext fun j => ?_)
    · have : gradient (K := ℚ) (m := 1) (size := fun _ => 2) (fun _ => some ![1, 0]) +
          gradient (K := ℚ) (m := 1) (size := fun _ => 2) (fun _ => some ![0, 1]) = fun _ => ![1, 1] := funext fun _ => e
      dsimp only
      rw [this]
      rfl
    · simp only [gradient, List.map_cons, List.map_nil, List.sum_cons, List.sum_nil, add_zero, Option.getD_some, Pi.add_apply]
      rw [e]

example : ∃ g, jacobians (K := ℚ) (m := 1) (size := fun _ => 2) [fun _ => some ![3, 5]] = .ok ([fun _ => ![3, 5]], g) :=
  (C165_when (K := ℚ) (m := 1) (size := fun _ => 2) (fun _ => some ![3, 5]) [] (fun _ => by simp)).2
    fun i h1 h2 => by simp at h2; omega

example : jacobians (K := ℚ) (m := 2) (size := fun _ => 1) [![some ![1], none], ![some ![1], some ![1]]] =
    .error .attributeError := C165_missing _ _ ⟨1, rfl⟩

end Jacobians

/-! ## The approximation of Hessian matrices -/

section Hessian

variable {K : Type} [Field K] {n : ℕ}

/-- C165: the approximation is the sum of the outer products: its quadratic form is the sum of the squares of the products with
the gradients, it is symmetric, it does not depend on the order of the gradients, and it is additive. -/
theorem C165_hessian (grads more : List (Fin n → K)) (v : Fin n → K) (i j : Fin n) :
    ∑ a, ∑ b, v a * approxHessian grads a b * v b = (grads.map fun g => (∑ a, g a * v a) ^ 2).sum ∧
    approxHessian grads i j = approxHessian grads j i ∧
    (∀ l, grads.Perm l → approxHessian l i j = approxHessian grads i j) ∧
    approxHessian (grads ++ more) i j = approxHessian grads i j + approxHessian more i j := by
  unfold approxHessian
  refine ⟨?_, ?_, fun l hl => ((hl.map _).sum_eq).symm, by rw [List.map_append, List.sum_append]⟩
  · induction grads with
    | nil => simp
    | cons g grads ih =>
      simp only [List.map_cons, List.sum_cons]
      rw [← ih, pow_two, Finset.sum_mul_sum, ← Finset.sum_add_distrib]
      refine Finset.sum_congr rfl fun a _ => ?_
      rw [← Finset.sum_add_distrib]
      exact Finset.sum_congr rfl fun b _ => by ring
  · congr 1
    exact List.map_congr_left fun g _ => mul_comm _ _

/-- C165: the approximation is positive semi-definite, and its form vanishes exactly on the vectors which are orthogonal to all
the gradients. -/
theorem C165_semidefinite [LinearOrder K] [IsStrictOrderedRing K] (grads : List (Fin n → K)) (v : Fin n → K) :
    0 ≤ ∑ a, ∑ b, v a * approxHessian grads a b * v b ∧
    (∑ a, ∑ b, v a * approxHessian grads a b * v b = 0 ↔ ∀ g ∈ grads, ∑ a, g a * v a = 0) := by
  have e : ∑ a, ∑ b, v a * approxHessian grads a b * v b = (grads.map fun g => (∑ a, g a * v a) ^ 2).sum := by
    unfold approxHessian
    induction grads with
    | nil => simp
    | cons g grads ih =>
      simp only [List.map_cons, List.sum_cons]
      rw [← ih, pow_two, Finset.sum_mul_sum, ← Finset.sum_add_distrib]
      refine Finset.sum_congr rfl fun a _ => ?_
      rw [← Finset.sum_add_distrib]
      exact Finset.sum_congr rfl fun b _ => by ring
  rw [e]
  have h0 : ∀ x ∈ grads.map fun g => (∑ a, g a * v a) ^ 2, 0 ≤ x := by
    intro x hx
    obtain ⟨g, _, rfl⟩ := List.mem_map.1 hx
    exact sq_nonneg _
  refine ⟨List.sum_nonneg h0, ?_⟩
  constructor
  · intro hs g hg
    have h1 := List.single_le_sum h0 _ (List.mem_map.2 ⟨g, hg, rfl⟩)
    rw [hs] at h1
    exact pow_eq_zero_iff (two_ne_zero) |>.1 (le_antisymm h1 (sq_nonneg _))
  · intro h
    refine List.sum_eq_zero fun x hx => ?_
    obtain ⟨g, hg, rfl⟩ := List.mem_map.1 hx
    rw [h g hg]
    ring

example : approxHessian ([![1, 2], ![3, -1]] : List (Fin 2 → ℚ)) 0 1 = -1 := by decide +kernel

end Hessian

end Verif.Props
