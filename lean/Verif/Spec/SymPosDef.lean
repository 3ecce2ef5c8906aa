import Mathlib.Data.Matrix.Basic
import Mathlib.Data.Matrix.Diagonal
import Mathlib.Data.Matrix.Mul
import Mathlib.Data.Real.Basic

/-!
# Specification for the symmetric positive definite projection
-/

namespace Verif.Spec

open Matrix

variable {n : ℕ}

/-- `μ` is an eigenvalue of `A`. -/
def IsEig (A : Matrix (Fin n) (Fin n) ℝ) (μ : ℝ) : Prop :=
  ∃ v : Fin n → ℝ, v ≠ 0 ∧ A *ᵥ v = μ • v

/-- `μ` is the largest eigenvalue of `A`. -/
def IsMaxEig (A : Matrix (Fin n) (Fin n) ℝ) (μ : ℝ) : Prop :=
  IsEig A μ ∧ ∀ ν, IsEig A ν → ν ≤ μ

/-- The contract of a symmetric eigensolver on one matrix: ascending eigenvalues and orthonormal
eigenvectors. -/
structure EigContract (A : Matrix (Fin n) (Fin n) ℝ)
    (r : (Fin n → ℝ) × Matrix (Fin n) (Fin n) ℝ) : Prop where
  ascending : ∀ i j : Fin n, i ≤ j → r.1 i ≤ r.1 j
  orthonormal : r.2.transpose * r.2 = 1
  eigen : A * r.2 = r.2 * Matrix.diagonal r.1

end Verif.Spec
