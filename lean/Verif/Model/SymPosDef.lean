import Verif.Model.Py
import Mathlib.Data.Matrix.Basic
import Mathlib.Data.Matrix.Diagonal
import Mathlib.Data.Matrix.Mul
import Mathlib.Data.Real.Basic

/-!
# `beer/utils.py` lines 126-161: enforcing symmetric positive definite matrices

`torch.symeig` is a parameter of the model: a function returning the eigenvalues and the matrix of
eigenvectors (columns). What is assumed about it is a hypothesis of the theorems, not of the model.
-/

namespace Verif.SymPosDef

open Verif

variable {n : ℕ}

/-- `symmetrize_matrix` (`beer/utils.py` 126-136). -/
noncomputable def symmetrize (m : Matrix (Fin n) (Fin n) ℝ) : Matrix (Fin n) (Fin n) ℝ :=
  fun i j => (1 / 2 : ℝ) * (m i j + m j i)

/-- `make_symposdef` (`beer/utils.py` 139-161). `evals[-1]` of an empty tensor is an
`IndexError`. -/
noncomputable def makeSymposdef
    (symeig : Matrix (Fin n) (Fin n) ℝ → (Fin n → ℝ) × Matrix (Fin n) (Fin n) ℝ)
    (threshold : ℝ) (m : Matrix (Fin n) (Fin n) ℝ) : Except Err (Matrix (Fin n) (Fin n) ℝ) :=
  let symMat := symmetrize m
  let evals := (symeig symMat).1
  let evecs := (symeig symMat).2
  if h : 0 < n then
    let last := evals ⟨n - 1, by omega⟩
    let newEvals : Fin n → ℝ := fun i =>
      if evals i < threshold * last then threshold * last else evals i
    .ok (evecs * Matrix.diagonal newEvals * evecs.transpose)
  else .error .indexError

end Verif.SymPosDef
