import Verif.Spec.Jacobian
import Mathlib.Algebra.BigOperators.Group.List.Basic
import Mathlib.Data.List.GetD

/-!
# Lemmas for Jacobian matrices
-/

namespace Verif.Jacobian

open Verif JacobianSpec

variable {K : Type} [Field K] {m : ℕ} {size : Fin m → ℕ}

theorem rows_ok (grads : (j : Fin m) → Grad K (size j)) (h : ∀ j, grads j ≠ none) (js : List (Fin m)) :
    rows grads js = .ok () := by
  induction js with
  | nil => rfl
  | cons j js ih =>
    unfold rows
    cases e : grads j with
    | none => exact absurd e (h j)
    | some g => exact ih

theorem rows_missing (grads : (j : Fin m) → Grad K (size j)) (js : List (Fin m)) (h : ∃ j ∈ js, grads j = none) :
    rows grads js = .error .attributeError := by
  induction js with
  | nil => obtain ⟨j, hj, _⟩ := h; simp at hj
  | cons j js ih =>
    unfold rows
    cases e : grads j with
    | none => rfl
    | some g =>
      obtain ⟨k, hk, hk'⟩ := h
      rcases List.mem_cons.1 hk with rfl | hk
      · rw [e] at hk'; simp at hk'
      · exact ih ⟨k, hk, hk'⟩

theorem addGrad_some {n : ℕ} (g : Fin n → K) (b : Grad K n) : addGrad (some g) b = some (g + b.getD 0) := by
  cases b with
  | none => simp [addGrad]
  | some b => rfl

/-- The rows after the given gradient of the inputs. -/
def prefixSums (g : (j : Fin m) → Fin (size j) → K) : List ((j : Fin m) → Grad K (size j)) →
    List ((j : Fin m) → Fin (size j) → K)
  | [] => []
  | out :: outs => (g + gradient out) :: prefixSums (g + gradient out) outs

theorem jacLoop_ok (outs : List ((j : Fin m) → Grad K (size j))) (g : (j : Fin m) → Fin (size j) → K)
    (acc : List ((j : Fin m) → Fin (size j) → K)) :
    jacLoop outs (fun j => some (g j)) acc =
      .ok (acc ++ prefixSums g outs, fun j => some ((g + (outs.map gradient).sum) j)) := by
  induction outs generalizing g acc with
  | nil => simp [jacLoop, prefixSums]
  | cons out outs ih =>
    have e : (fun j => addGrad (some (g j)) (out j)) = fun j => some ((g + gradient out) j) :=
      funext fun j => addGrad_some (g j) (out j)
    have e2 : (fun j => (addGrad (some (g j)) (out j)).getD 0) = g + gradient out :=
      funext fun j => by rw [addGrad_some]; rfl
    unfold jacLoop
    dsimp only
    rw [e, e2, rows_ok _ (fun j => by simp)]
    dsimp only
    rw [ih]
    simp only [prefixSums, List.append_assoc, List.singleton_append, List.map_cons, List.sum_cons, add_assoc]

theorem prefixSums_length (g : (j : Fin m) → Fin (size j) → K) (outs : List ((j : Fin m) → Grad K (size j))) :
    (prefixSums g outs).length = outs.length := by
  induction outs generalizing g with
  | nil => rfl
  | cons out outs ih => rw [prefixSums, List.length_cons, ih, List.length_cons]

theorem prefixSums_getD (g : (j : Fin m) → Fin (size j) → K) (outs : List ((j : Fin m) → Grad K (size j))) (i : ℕ)
    (hi : i < outs.length) :
    (prefixSums g outs).getD i 0 = g + ((outs.take (i + 1)).map gradient).sum := by
  induction outs generalizing g i with
  | nil => simp at hi
  | cons out outs ih =>
    cases i with
    | zero => simp [prefixSums]
    | succ i =>
      rw [prefixSums, List.getD_cons_succ, ih _ i (by simpa using hi), List.take_succ_cons, List.map_cons, List.sum_cons,
        add_assoc]

end Verif.Jacobian
