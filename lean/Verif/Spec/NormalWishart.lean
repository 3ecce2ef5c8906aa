import Mathlib.Analysis.Matrix.PosDef
import Mathlib.LinearAlgebra.Matrix.PosDef
import Verif.Model.NormalWishart

/-!
# Specification vocabulary for the Normal-Wishart
-/

namespace Verif.DistSpec

open Verif.Dists Real Matrix

/-- Valid Normal-Wishart parameters: positive scale, symmetric positive definite scale matrix, more
than `D - 1` degrees of freedom. -/
def NWValid {D : ℕ} (p : NW D) : Prop :=
  0 < p.scale ∧ p.W.PosDef ∧ (D : ℝ) - 1 < p.dof

/-- Weighted data in dimension `D`. -/
abbrev WData (D : ℕ) := List (ℝ × (Fin D → ℝ))

/-- `Σ r`. -/
def wcount {D : ℕ} (d : WData D) : ℝ := (d.map fun e => e.1).sum

/-- `Σ r x`. -/
def wfirst {D : ℕ} (d : WData D) (i : Fin D) : ℝ := (d.map fun e => e.1 * e.2 i).sum

/-- `Σ r x xᵀ`. -/
def wsecond {D : ℕ} (d : WData D) : Matrix (Fin D) (Fin D) ℝ :=
  Matrix.of fun i j => (d.map fun e => e.1 * (e.2 i * e.2 j)).sum

/-- Log density of the normal with mean `m` and precision matrix `L`. -/
noncomputable def fullNormalLogDensity {D : ℕ} (m : Fin D → ℝ) (L : Matrix (Fin D) (Fin D) ℝ)
    (x : Fin D → ℝ) : ℝ :=
  (1/2) * log L.det - (1/2) * ((x - m) ⬝ᵥ (L *ᵥ (x - m))) - (D : ℝ) / 2 * log (2 * π)

/-- The entries of a matrix below its diagonal, read row by row. -/
def strictLower {D : ℕ} (L : Matrix (Fin D) (Fin D) ℝ) : List ℝ :=
  (List.finRange D).flatMap fun i => ((List.finRange D).filter (· < i)).map fun j => L i j

end Verif.DistSpec
