import Mathlib.Probability.Distributions.Gaussian.Real
import Mathlib.MeasureTheory.Constructions.Pi

/-!
# Specification of the probabilistic layers
-/

namespace Verif.ProbLayersSpec

open MeasureTheory ProbabilityTheory

/-- The law of a vector of independent normal variables with the given means and variances. -/
noncomputable def diagGaussian {D : ℕ} (m v : Fin D → ℝ) : Measure (Fin D → ℝ) :=
  Measure.pi fun d => gaussianReal (m d) (v d).toNNReal

/-- Probability of a vector of independent binary variables with the given means. -/
noncomputable def bernoulli {D : ℕ} (m : Fin D → ℝ) (x : Fin D → Bool) : ℝ :=
  ∏ d, if x d then m d else 1 - m d

end Verif.ProbLayersSpec
