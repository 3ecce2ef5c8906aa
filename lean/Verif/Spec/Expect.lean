import Mathlib.Probability.Distributions.Gamma
import Mathlib.Probability.Distributions.Gaussian.Multivariate
import Verif.Model.NormalDist

/-!
# Specification vocabulary: the laws whose expectations the distribution objects compute

The laws are Mathlib's, independent of the model.
-/

namespace Verif.DistSpec

open Real MeasureTheory ProbabilityTheory

/-- Independent Gamma variables with shapes `a` and rates `b`. -/
noncomputable def gammaLaw {D : ℕ} (a b : Fin D → ℝ) : Measure (Fin D → ℝ) :=
  Measure.pi fun i => gammaMeasure (a i) (b i)

/-- Independent normal variables with means `m` and variances `s`. -/
noncomputable def normalLaw {D : ℕ} (m s : Fin D → ℝ) : Measure (Fin D → ℝ) :=
  Measure.pi fun i => gaussianReal (m i) (s i).toNNReal

/-- The Dirichlet law: independent Gamma variables divided by their sum. -/
noncomputable def dirichletLaw {D : ℕ} (c : Fin D → ℝ) : Measure (Fin D → ℝ) :=
  (gammaLaw c fun _ => 1).map fun g i => g i / ∑ j, g j

/-- Expectation of `f mu precision` when the precision is Gamma with shape `a` and rate `b`, and `mu`
given the precision is normal with mean `m` and variance `1 / (k * precision)`. -/
noncomputable def ngExpect (m k a b : ℝ) (f : ℝ → ℝ → ℝ) : ℝ :=
  ∫ l, ∫ mu, f mu l ∂gaussianReal m (1 / (k * l)).toNNReal ∂gammaMeasure a b

end Verif.DistSpec
