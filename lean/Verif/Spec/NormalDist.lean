import Mathlib.Probability.Distributions.Gaussian.Real
import Mathlib.MeasureTheory.Integral.Bochner.Basic
import Verif.Model.NormalDist
import Verif.Spec.KL
import Verif.Spec.NormalWishart

/-!
# Specification vocabulary for the normal distribution objects
-/

namespace Verif.DistSpec

open Verif.Dists Real ProbabilityTheory Matrix

/-- Log density of independent normals with means `m i` and variances `s i` at `x`. -/
noncomputable def diagLogDensity (m s x : List ℝ) : ℝ :=
  (List.zipWith (fun (ms : ℝ × ℝ) x => log (gaussianPDFReal ms.1 (Real.toNNReal ms.2) x))
    (m.zip s) x).sum

/-- Valid full-covariance normal: the covariance matrix is symmetric positive definite. -/
def FNValid {D : ℕ} (p : FN D) : Prop := p.cov.PosDef

/-- `e` is a random vector with mean zero and identity covariance under `μ`. -/
structure Standard {Ω : Type*} [MeasurableSpace Ω] (μ : MeasureTheory.Measure Ω) {D : ℕ}
    (e : Ω → Fin D → ℝ) : Prop where
  int1 : ∀ i, MeasureTheory.Integrable (fun ω => e ω i) μ
  int2 : ∀ i j, MeasureTheory.Integrable (fun ω => e ω i * e ω j) μ
  mean : ∀ i, ∫ ω, e ω i ∂μ = 0
  cov : ∀ i j, ∫ ω, e ω i * e ω j ∂μ = if i = j then 1 else 0

end Verif.DistSpec
