import Mathlib.Analysis.SpecialFunctions.Gamma.Basic
import Mathlib.Analysis.SpecialFunctions.Log.Basic
import Mathlib.Analysis.Calculus.Deriv.Basic
import Mathlib.Analysis.Real.Sqrt
import Mathlib.LinearAlgebra.Matrix.NonsingularInverse
import Verif.Model.Dists

/-!
# Model of `beer/dists/*.py` over the reals: log-normalisers, expected statistics, KL, likelihoods

Real numbers instead of floats; `torch.lgamma` is `ln Γ` and `torch.digamma` its derivative.
-/

namespace Verif.Dists

open Real

/-- `torch.lgamma` (positive arguments). -/
noncomputable def lgamma (x : ℝ) : ℝ := Real.log (Real.Gamma x)

/-- `torch.digamma` (positive arguments). -/
noncomputable def digamma (x : ℝ) : ℝ := deriv lgamma x

/-! ## Expected sufficient statistics and log-normalisers -/

/-- `Dirichlet.expected_sufficient_statistics`, `dirichlet.py` 106-128. -/
noncomputable def dirExpStats (c : List ℝ) : List ℝ :=
  (c.dropLast.map fun a => digamma a - digamma (c.getLastD 0)) ++
    [digamma (c.getLastD 0) - digamma c.sum]

/-- `Categorical.expected_log_likelihood(stats)`, `models/categorical.py` 70-76, for one row of
data `x` (one-hot for a category, `mixture.py` passes the identity matrix):
`CategoricalLikelihood.__call__` (`dirichlet.py` 57-59) is the inner product of the statistics with
the expected natural parameters. -/
noncomputable def catExpLlh (c x : List ℝ) : ℝ := vdot (catStats x) (dirExpStats c)

/-- `Dirichlet.log_norm`, `dirichlet.py` 135-138. -/
noncomputable def dirLogNorm (c : List ℝ) : ℝ := (c.map lgamma).sum - lgamma c.sum

/-- `Gamma.expected_sufficient_statistics`, `dists/gamma.py` 103-117. -/
noncomputable def gamExpStats (p : GammaP ℝ) : List ℝ :=
  List.zipWith (fun a b => a / b) p.shape p.rate ++
  List.zipWith (fun a b => digamma a - log b) p.shape p.rate

/-- `Gamma.log_norm`, `dists/gamma.py` 122-124. -/
noncomputable def gamLogNorm (p : GammaP ℝ) : ℝ :=
  (List.zipWith (fun a b => lgamma a - a * log b) p.shape p.rate).sum

/-- `NormalGamma.expected_sufficient_statistics`, `normalgamma.py` 118-146. -/
noncomputable def ngExpStats (p : NG ℝ) : List ℝ :=
  List.zipWith (fun b m => p.shape / b * m) p.rates p.mean ++
  p.rates.map (fun b => p.shape / b) ++
  [(List.zipWith (fun b m => p.shape / b * m ^ 2) p.rates p.mean).sum +
      (p.mean.length : ℝ) / p.scale,
   (p.rates.map fun b => digamma p.shape - log b).sum]

/-- `NormalGamma.log_norm`, `normalgamma.py` 151-157. -/
noncomputable def ngLogNorm (p : NG ℝ) : ℝ :=
  (p.rates.length : ℝ) * lgamma p.shape - p.shape * (p.rates.map log).sum
    - (1/2) * (p.rates.length : ℝ) * log p.scale

/-- `IsotropicNormalGamma.expected_sufficient_statistics`, `isonormalgamma.py` 119-157. -/
noncomputable def ingExpStats (p : ING ℝ) : List ℝ :=
  p.mean.map (p.shape / p.rate * ·) ++
  [p.shape / p.rate,
   p.shape / p.rate * (p.mean.map (· ^ 2)).sum + (p.mean.length : ℝ) / p.scale,
   digamma p.shape - log p.rate]

/-- `IsotropicNormalGamma.log_norm`, `isonormalgamma.py` 163-168. -/
noncomputable def ingLogNorm (p : ING ℝ) : ℝ :=
  lgamma p.shape - p.shape * log p.rate - (1/2) * (p.mean.length : ℝ) * log p.scale

/-- `NormalDiagonalCovariance.expected_sufficient_statistics`, `normaldiag.py` 112-137. -/
noncomputable def ndExpStats (p : ND ℝ) : List ℝ :=
  p.mean ++ List.zipWith (fun s m => -(1/2) * (s + m ^ 2)) p.diagCov p.mean

/-- `NormalDiagonalCovariance.log_norm`, `normaldiag.py` 142-150. -/
noncomputable def ndLogNorm (p : ND ℝ) : ℝ :=
  (1/2) * (List.zipWith (fun s m => 1 / s * m ^ 2) p.diagCov p.mean).sum +
  (1/2) * (p.diagCov.map log).sum + (1/2) * (p.mean.length : ℝ) * log (2 * π)

/-! ## `basedist.py` 243-263 : `kl_div` -/

/-- A distribution object of one of the modelled classes. -/
inductive Dist where
  | dirichlet (c : List ℝ)
  | gamma (p : GammaP ℝ)
  | normalGamma (p : NG ℝ)
  | isoNormalGamma (p : ING ℝ)
  | normalDiag (p : ND ℝ)

namespace Dist

/-- `pdf.__class__`. -/
def cls : Dist → ℕ
  | dirichlet _ => 0
  | gamma _ => 1
  | normalGamma _ => 2
  | isoNormalGamma _ => 3
  | normalDiag _ => 4

/-- `pdf.dim` (`dirichlet.py` 98-104, `dists/gamma.py` 92-98, `normalgamma.py` 111-113,
`isonormalgamma.py` 112-114, `normaldiag.py` 80-82), as a tuple; an `int` is a one-tuple. -/
def dim : Dist → List ℕ
  | dirichlet c => [c.length]
  | gamma p => [p.shape.length]
  | normalGamma p => [p.mean.length, p.rates.length]
  | isoNormalGamma p => [p.mean.length, 1]
  | normalDiag p => [p.mean.length]

/-- `pdf.natural_parameters()`. -/
noncomputable def natural : Dist → List ℝ
  | dirichlet c => dirNatural c
  | gamma p => gamNatural p
  | normalGamma p => ngNatural p
  | isoNormalGamma p => ingNatural p
  | normalDiag p => ndNatural p

/-- `pdf.expected_sufficient_statistics()`. -/
noncomputable def expStats : Dist → List ℝ
  | dirichlet c => dirExpStats c
  | gamma p => gamExpStats p
  | normalGamma p => ngExpStats p
  | isoNormalGamma p => ingExpStats p
  | normalDiag p => ndExpStats p

/-- `pdf.log_norm()`. -/
noncomputable def logNorm : Dist → ℝ
  | dirichlet c => dirLogNorm c
  | gamma p => gamLogNorm p
  | normalGamma p => ngLogNorm p
  | isoNormalGamma p => ingLogNorm p
  | normalDiag p => ndLogNorm p

end Dist

/-- `kl_div(pdf1, pdf2)`, `basedist.py` 243-263.  The elementwise operations raise `RuntimeError`
when the lengths differ (the broadcasting of one-element vectors is not modelled). -/
noncomputable def klDiv (p q : Dist) : Except Err ℝ :=
  if p.cls ≠ q.cls then .error .typeMismatch
  else if p.dim ≠ q.dim then .error .dimMismatch
  else if p.natural.length ≠ q.natural.length ∨ p.expStats.length ≠ p.natural.length then .error .runtimeError
  else .ok (q.logNorm - p.logNorm - vdot p.expStats (vsub q.natural p.natural))

/-- `entropy(pdf)`, `basedist.py` 266-271: the name `nparams1` is not defined. -/
noncomputable def entropy (p : Dist) : Except Err ℝ :=
  let _nparams := p.natural
  let _expStats := p.expStats
  let _lnorm := p.logNorm
  .error .nameError

end Verif.Dists
