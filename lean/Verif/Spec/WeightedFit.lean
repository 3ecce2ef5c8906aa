import Verif.Spec.NormalFit
import Verif.Spec.NormalWishart
import Verif.Model.Dists
import Mathlib.Analysis.SpecialFunctions.Exp

/-!
# Mean and covariance of weighted data, and their compromise with a prior
-/

namespace Verif.FitSpec

open Verif.DistSpec Verif.Dists

variable {D : ℕ}

/-- The mean of weighted data. -/
noncomputable def wmean (d : WData D) (i : Fin D) : ℝ := (d.map fun r => r.1 * r.2 i).sum / (d.map fun r => r.1).sum

/-- The covariance of weighted data. -/
noncomputable def wcov (d : WData D) : Matrix (Fin D) (Fin D) ℝ :=
  Matrix.of fun i j =>
    (d.map fun r => r.1 * ((r.2 i - wmean d i) * (r.2 j - wmean d j))).sum / (d.map fun r => r.1).sum

/-- The number of observations the weights stand for. -/
def total (d : WData D) : ℝ := (d.map fun r => r.1).sum

/-- The variances of a prior with diagonal covariance pooled with those of weighted data. -/
noncomputable def diagFit (p : NG ℝ) (d : WData D) : Matrix (Fin D) (Fin D) ℝ :=
  Matrix.diagonal fun i => (2 * p.rates.getD i 0 + total d * wcov d i i +
    between p.scale (total d) (fun j => p.mean.getD j 0) (wmean d) i i) / (2 * p.shape + total d)

/-- The variance of a prior with isotropic covariance pooled with those of weighted data. -/
noncomputable def isoFit (p : ING ℝ) (d : WData D) : Matrix (Fin D) (Fin D) ℝ :=
  ((2 * p.rate + ∑ i, (total d * wcov d i i +
    between p.scale (total d) (fun j => p.mean.getD j 0) (wmean d) i i)) / (2 * p.shape + D * total d)) • 1

/-- The covariance of a prior pooled with that of weighted data. -/
noncomputable def fullFit (p : NW D) (d : WData D) : Matrix (Fin D) (Fin D) ℝ :=
  (1 / (p.dof + total d)) • (p.W⁻¹ + total d • wcov d + between p.scale (total d) p.mean (wmean d))

/-- The share of component `k` when the components have log-weights `lw` and log-likelihoods `v`. -/
noncomputable def share {K : ℕ} (lw v : Fin K → ℝ) (k : Fin K) : ℝ :=
  Real.exp (lw k) * Real.exp (v k) / ∑ j, Real.exp (lw j) * Real.exp (v j)

/-- The data with the weights of member `m`, all multiplied by `scale`. -/
def weighted {M : ℕ} (scale : ℝ) (rows : List ((Fin D → ℝ) × (Fin M → ℝ))) (m : Fin M) : WData D :=
  rows.map fun r => (scale * r.2 m, r.1)

end Verif.FitSpec
