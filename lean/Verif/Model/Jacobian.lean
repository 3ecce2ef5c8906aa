import Verif.Model.Py
import Mathlib.Data.Real.Basic

/-!
# Jacobians and the approximation of Hessians

`beer/utils.py` 186-223.  The automatic differentiation of torch is given by its results: for every output, the gradient with
respect to each input, or nothing when the output does not depend on that input.  `backward` adds the gradients to the attribute
`grad` of the inputs, which is `None` at first.  The inputs are different leaves of the graph and every output depends on some
tensor that requires a gradient.
-/

namespace Verif.Jacobian

open Verif

variable {K : Type} [Field K]

/-- The attribute `grad` of a tensor with `n` elements. -/
abbrev Grad (K : Type) (n : ℕ) := Option (Fin n → K)

/-- What `backward` does to `grad`. -/
def addGrad {n : ℕ} : Grad K n → Grad K n → Grad K n
  | old, none => old
  | none, some g => some g
  | some old, some g => some (old + g)

/-- `in_tensor.grad.view(-1)`, `utils.py` 205. -/
def viewGrad {n : ℕ} : Grad K n → Except Err (Fin n → K)
  | none => .error .attributeError
  | some g => .ok g

/-- The loop over the inputs, `utils.py` 204-205: the rows written in the matrices. -/
def rows {m : ℕ} {size : Fin m → ℕ} (grads : (j : Fin m) → Grad K (size j)) :
    List (Fin m) → Except Err Unit
  | [] => .ok ()
  | j :: js =>
    match viewGrad (grads j) with
    | .error e => .error e
    | .ok _ => rows grads js

/-- The loop over the outputs, `utils.py` 202-205: `outs` are the gradients of the remaining outputs, `acc` the rows already
written (one for each output, each with one part by input).  Returns also the final `grad` of the inputs. -/
def jacLoop {m : ℕ} {size : Fin m → ℕ} :
    List ((j : Fin m) → Grad K (size j)) → ((j : Fin m) → Grad K (size j)) → List ((j : Fin m) → Fin (size j) → K) →
    Except Err (List ((j : Fin m) → Fin (size j) → K) × ((j : Fin m) → Grad K (size j)))
  | [], grads, acc => .ok (acc, grads)
  | out :: outs, grads, acc =>
    let grads' := fun j => addGrad (grads j) (out j)
    match rows grads' (List.finRange m) with
    | .error e => .error e
    | .ok () => jacLoop outs grads' (acc ++ [fun j => (grads' j).getD 0])

/-- `jacobians`, `utils.py` 186-206; the gradients of the inputs are removed before the loop (200-201). -/
def jacobians {m : ℕ} {size : Fin m → ℕ} (outs : List ((j : Fin m) → Grad K (size j))) :
    Except Err (List ((j : Fin m) → Fin (size j) → K) × ((j : Fin m) → Grad K (size j))) :=
  jacLoop outs (fun _ => none) []

/-- `approximate_hessian`, `utils.py` 209-223, for one list of gradients:
`torch.sum(grads[:, :, None] * grads[:, None, :], dim=0)`. -/
def approxHessian {n : ℕ} (grads : List (Fin n → K)) (i j : Fin n) : K := (grads.map fun g => g i * g j).sum

end Verif.Jacobian
