import Verif.Model.DistsReal

/-!
# Model of the likelihood functions of `beer/dists/*.py`

`sufficient_statistics`, `pdfvectors_from_rvectors`, `parameters_from_pdfvector`, `__call__`,
for one data point and one vector (the Python code works row by row).  Real numbers for floats.
-/

namespace Verif.Dists

open Real

/-- `stats @ pdfvecs.t()`: raises when the sizes do not match. -/
noncomputable def llhDot (pdfvec stats : List ℝ) : Except Err ℝ :=
  if stats.length ≠ pdfvec.length then .error .runtimeError else .ok (vdot stats pdfvec)

/-! ## `dirichlet.py` 10-59 : `CategoricalLikelihood` -/

/-- `CategoricalLikelihood.log_norm`, lines 23-28: `softplus(logsumexp(nparams))`; the `logsumexp`
of no value is `-inf`, the `softplus` of which is `0`. -/
noncomputable def catLogNorm (nparams : List ℝ) : ℝ :=
  match nparams with
  | [] => 0
  | _ => log (1 + exp (log ((nparams.map exp).sum)))

/-- `pdfvectors_from_rvectors`, lines 43-55. -/
noncomputable def catPdfvec (rvec : List ℝ) : List ℝ := rvec ++ [-catLogNorm rvec]

/-- `parameters_from_pdfvector`, lines 30-41 (an empty vector raises at `retval[:, -1]`). -/
noncomputable def catParams (pdfvec : List ℝ) : Except Err (List ℝ) :=
  if pdfvec.length = 0 then .error .indexError else
  let lnorm := catLogNorm pdfvec.dropLast
  let remainder := exp (-lnorm)
  .ok ((pdfvec.dropLast.map fun v => exp v * remainder) ++ [remainder])

/-- `__call__`, lines 57-59. -/
noncomputable def catCall (pdfvec stats : List ℝ) : Except Err ℝ := llhDot pdfvec stats

/-! ## `normalgamma.py` 11-59 : `NormalDiagonalLikelihood` -/

/-- `pdfvectors_from_rvectors`, lines 41-53. -/
noncomputable def ngPdfvec (rvec : List ℝ) : List ℝ :=
  let dim := rvec.length / 2
  let mean := rvec.take dim
  let logPrecision := (rvec.take (2 * dim)).drop dim
  let precision := logPrecision.map exp
  List.zipWith (· * ·) precision mean ++ precision ++
    [(List.zipWith (fun p m => p * m ^ 2) precision mean).sum, logPrecision.sum]

/-- `parameters_from_pdfvector`, lines 29-38, with `self.dim = dim`: `(mean, precision)`.  The
elementwise division raises when the slices differ in length. -/
noncomputable def ngParams (dim : ℕ) (pdfvec : List ℝ) : Except Err (List ℝ × List ℝ) :=
  let precision := (pdfvec.take (2 * dim)).drop dim
  if (pdfvec.take dim).length ≠ precision.length then .error .runtimeError
  else .ok (List.zipWith (· / ·) (pdfvec.take dim) precision, precision)

/-- `__call__`, lines 55-59. -/
noncomputable def normalCall (dim : ℕ) (pdfvec stats : List ℝ) : Except Err ℝ :=
  match llhDot pdfvec stats with
  | .error e => .error e
  | .ok v => .ok (v + -(1/2) * (dim : ℝ) * log (2 * π))

/-! ## `isonormalgamma.py` 12-60 : `IsotropicNormalLikelihood`

`__call__`, lines 56-60, is the same as for the diagonal case (`normalCall`). -/

/-- `pdfvectors_from_rvectors`, lines 32-43.  `rvecs[:, -2:-1]` is the element before the last one
(empty when there is only one element). -/
noncomputable def ingPdfvec (rvec : List ℝ) : List ℝ :=
  let dim := rvec.length - 1
  let mean := rvec.take dim
  let logPrecision := (rvec.take (rvec.length - 1)).drop (rvec.length - 2)
  match logPrecision with
  | [] => [0, 0]
  | lp :: _ =>
    mean.map (exp lp * ·) ++ [exp lp, (mean.map fun m => exp lp * m ^ 2).sum, lp]

/-- `parameters_from_pdfvector`, lines 45-54, one-dimensional argument: `(mean, precision)`; column
`-3` must exist. -/
noncomputable def ingParams (pdfvec : List ℝ) : Except Err (List ℝ × ℝ) :=
  if pdfvec.length < 3 then .error .indexError else
  let precision := pdfvec.getD (pdfvec.length - 3) 0
  .ok ((pdfvec.take (pdfvec.length - 3)).map (· / precision), precision)

/-- `parameters_from_pdfvector`, lines 45-54, for a batch of `n` vectors of length `len`: outcome
only.  The `(n, len-3)` block is divided by a vector of `n` elements (broadcast along the last
dimension), then the undefined name `dim` is read. -/
def ingParamsBatch (n len : ℕ) : Err :=
  if len < 3 then .indexError
  else if n = 1 ∨ len - 3 = 1 ∨ n = len - 3 then .nameError
  else .runtimeError

/-! ## `dists/gamma.py` 13-54 : `GammaLikelihood` -/

/-- `sufficient_statistics`, lines 21-28. -/
noncomputable def gamStats (x : List ℝ) : List ℝ := x.map (- ·) ++ x.map log ++ [1]

/-- `EPS`, line 11. -/
noncomputable def gamEPS : ℝ := 1 / 1000000

/-- `pdfvectors_from_rvectors`, lines 42-49.  For a vector of odd length the two slices differ in
length and `shape * log(rate)` raises (broadcasting of one-element slices not modelled). -/
noncomputable def gamPdfvec (rvec : List ℝ) : Except Err (List ℝ) :=
  let dim := rvec.length / 2
  let shape := (rvec.take dim).map fun r => exp (gamEPS + r)
  let rate := (rvec.drop dim).map fun r => exp (gamEPS + r)
  if shape.length ≠ rate.length then .error .runtimeError else
  let lnorm := (List.zipWith (fun s r => lgamma s - s * log r) shape rate).sum
  .ok (rate.map (- ·) ++ shape.map (· - 1) ++ [-lnorm])

/-- `parameters_from_pdfvector`, lines 30-39: `(shape, rate)`. -/
noncomputable def gamParams (dim : ℕ) (pdfvec : List ℝ) : List ℝ × List ℝ :=
  (((pdfvec.take (2 * dim)).drop dim).map (· + 1), (pdfvec.take dim).map (- ·))

/-- `__call__`, lines 51-54. -/
noncomputable def gamCall (pdfvec stats : List ℝ) : Except Err ℝ := llhDot pdfvec stats

/-! ## `normaldiag.py` 12-41 : `NormalFixedDiagonalCovarianceLikelihood`

`__call__`, lines 37-41, is `normalCall`. -/

/-- `sufficient_statistics`, lines 20-29. -/
noncomputable def fixStats (x : List ℝ) : List ℝ := x ++ x.map fun _ => -(1/2)

/-- `pdfvectors_from_rvectors`, lines 34-35. -/
noncomputable def fixPdfvec (rvec : List ℝ) : List ℝ := rvec ++ rvec.map (· ^ 2)

/-! ## `sufficient_statistics_dim(zero_stats)` -/

/-- `dirichlet.py` 14-16 (Python integers may be negative for `dim = 0`; not modelled). -/
def catStatsDim (dim : ℕ) (zeroStats : Bool) : ℕ := dim - 1 + (if zeroStats then 1 else 0)

/-- `normalgamma.py` 15-17. -/
def ngStatsDim (dim : ℕ) (zeroStats : Bool) : ℕ := 2 * dim + (if zeroStats then 2 else 0)

/-- `isonormalgamma.py` 16-18. -/
def ingStatsDim (dim : ℕ) (zeroStats : Bool) : ℕ := dim + 1 + (if zeroStats then 2 else 0)

/-- `dists/gamma.py` 17-19. -/
def gamStatsDim (dim : ℕ) (zeroStats : Bool) : ℕ := 2 * dim + (if zeroStats then 1 else 0)

/-- `normaldiag.py` 16-18. -/
def fixStatsDim (dim : ℕ) (zeroStats : Bool) : ℕ := dim + (if zeroStats then 1 else 0)

end Verif.Dists
