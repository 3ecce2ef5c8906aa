import Mathlib.Probability.Distributions.Gaussian.Real
import Mathlib.Probability.Distributions.Gamma
import Mathlib.Algebra.BigOperators.Fin

/-!
# Densities, written with Mathlib's probability densities
-/

namespace Verif.DistSpec

open Real ProbabilityTheory

/-- Density of independent normals with means `m i` and precisions `l i` at `x`. -/
noncomputable def normalDensity {D : ℕ} (m l x : Fin D → ℝ) : ℝ :=
  ∏ i, gaussianPDFReal (m i) (Real.toNNReal (1 / l i)) (x i)

/-- Density of independent Gammas with shapes `a i` and rates `b i` at `x`. -/
noncomputable def gammaDensity {D : ℕ} (a b x : Fin D → ℝ) : ℝ := ∏ i, gammaPDFReal (a i) (b i) (x i)

/-- Probabilities of the `D + 1` categories with log-odds `r` against the last one. -/
noncomputable def softmaxProbs {D : ℕ} (r : Fin D → ℝ) : Fin (D + 1) → ℝ :=
  Fin.snoc (fun i => exp (r i) / (1 + ∑ j, exp (r j))) (1 / (1 + ∑ j, exp (r j)))

end Verif.DistSpec
