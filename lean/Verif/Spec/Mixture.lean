import Verif.Model.Mixture
import Mathlib.Analysis.SpecialFunctions.Log.NegMulLog

/-!
# Specification for mixtures
-/

namespace Verif.Mixture

open Real

/-- `r` is a distribution over the components. -/
def IsResps {K : ℕ} (r : Fin K → ℝ) : Prop := (∀ k, 0 ≤ r k) ∧ ∑ k, r k = 1

/-- The local objective of a frame for responsibilities `r`: expected complete log-likelihood plus the
entropy of `r`. -/
noncomputable def localObjective {K : ℕ} (logWeights llh r : Fin K → ℝ) : ℝ :=
  ∑ k, r k * (logWeights k + llh k) + ∑ k, negMulLog (r k)

end Verif.Mixture
