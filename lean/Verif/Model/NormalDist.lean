import Verif.Model.WishartExp

/-!
# Model of the normal distribution objects (`dists/normaldiag.py` 68-192, `dists/normal.py`)

The objects hold one distribution (1-D mean) or a batch (one distribution per row).  A batch is a
list of parameters; a 2-D tensor is a list of rows.  `stats @ nparams.t()` and the broadcasting
subtraction of the log-normalisers are written out.  Real numbers instead of floats; the covariance
matrices given to `torch.cholesky` and `inverse` are one matrix per distribution, and one singular
or non positive definite matrix makes the whole call raise.
-/

namespace Verif.Dists

open Real

/-- Broadcasting of two vectors (or of two tensors along the first dimension): equal sizes, or one
of the two has size one; anything else raises. -/
def bcast {α β γ : Type*} (f : α → β → γ) (xs : List α) (ys : List β) : Except Err (List γ) :=
  if xs.length = ys.length then .ok (List.zipWith f xs ys)
  else match xs, ys with
    | [x], ys => .ok (ys.map (f x))
    | xs, [y] => .ok (xs.map (f · y))
    | _, _ => .error .runtimeError

/-! ## `dists/normaldiag.py` -/

/-- `NormalDiagonalCovariance.sufficient_statistics`, `normaldiag.py` 109-110, one row. -/
noncomputable def ndStats (x : List ℝ) : List ℝ := x ++ x.map (fun v => -(1/2) * v ^ 2)

/-- `lnorm` of one distribution, `normaldiag.py` 96-98. -/
noncomputable def ndLnorm (p : ND ℝ) : ℝ :=
  (1/2) * ((p.diagCov.map log).sum + (List.zipWith (fun s m => 1 / s * m ^ 2) p.diagCov p.mean).sum)

/-- `log_basemeasure`, `normaldiag.py` 99 and `dists/normal.py` 93. -/
noncomputable def normBase (dim : ℕ) : ℝ := -(1/2) * ((dim : ℝ) * log (2 * π))

/-- One row of `forward(stats, pdfwise=True)`, `normaldiag.py` 102-103. -/
noncomputable def ndPdfRow (dim : ℕ) (p : ND ℝ) (s : List ℝ) : ℝ :=
  vdot (ndNatural p) s - ndLnorm p + normBase dim

/-- `forward(stats, pdfwise=True)` for a batch, `normaldiag.py` 101-103: row by row. -/
noncomputable def ndForwardPdfwise (dim : ℕ) (ps : List (ND ℝ)) (stats : List (List ℝ)) :
    Except Err (List ℝ) :=
  bcast (ndPdfRow dim) ps stats

/-- `forward(stats)` for a batch, `normaldiag.py` 104 and 107: `nparams @ stats.t()` has one row per
distribution, `lnorm` has one element per distribution and is broadcast along the *last* dimension.-/
noncomputable def ndForward (dim : ℕ) (ps : List (ND ℝ)) (stats : List (List ℝ)) :
    Except Err (List (List ℝ)) :=
  (ps.map fun p => stats.map fun s => vdot (ndNatural p) s).mapM fun row =>
    bcast (fun v l => v - l + normBase dim) row (ps.map ndLnorm)

/-- `forward(stats)` for a single distribution, `normaldiag.py` 93-106: computed as a batch of one,
then flattened. -/
noncomputable def ndForwardSingle (p : ND ℝ) (stats : List (List ℝ)) : Except Err (List ℝ) :=
  match ndForward p.mean.length [p] stats with
  | .error e => .error e
  | .ok rows => .ok rows.flatten

/-- `NormalDiagonalCovariance.expected_sufficient_statistics`, `normaldiag.py` 134-137, for a batch:
`torch.cat` without `dim` stacks the means and the second order terms as *rows*. -/
noncomputable def ndExpStatsBatch (ps : List (ND ℝ)) : List (List ℝ) :=
  ps.map (fun p => p.mean) ++
    ps.map fun p => List.zipWith (fun s m => -(1/2) * (s + m ^ 2)) p.diagCov p.mean

/-- `kl_div(pdf1, pdf2)`, `basedist.py` 243-263, for two batches of diagonal normals.  The shape of
`pdf.dim` is the last dimension only. -/
noncomputable def ndKlBatch (dim dim' : ℕ) (ps qs : List (ND ℝ)) : Except Err (List ℝ) :=
  if dim ≠ dim' then .error .dimMismatch else
  match bcast (fun q p => vsub q p) (qs.map ndNatural) (ps.map ndNatural) with
  | .error e => .error e
  | .ok diff =>
    match bcast Prod.mk (ndExpStatsBatch ps) diff with
    | .error e => .error e
    | .ok pairs =>
      match pairs.mapM fun (e, d) => bcast (· * ·) e d with
      | .error e => .error e
      | .ok prods =>
        match bcast (fun l2 l1 => l2 - l1) (qs.map ndLogNorm) (ps.map ndLogNorm) with
        | .error e => .error e
        | .ok ls => bcast (fun l r => l - r) ls (prods.map List.sum)

/-- `NormalDiagonalCovariance.sample`, `normaldiag.py` 152-164, one distribution, one draw, given the
standard normal draw `eps`. -/
noncomputable def ndSample (p : ND ℝ) (eps : List ℝ) : List ℝ :=
  List.zipWith (· + ·) p.mean (List.zipWith (fun s e => √s * e) p.diagCov eps)

/-! ## `dists/normal.py` -/

/-- `NormalFullCovarianceStdParams`, `dists/normal.py` 12-23. -/
@[ext] structure FN (D : ℕ) where
  mean : Fin D → ℝ
  cov : Matrix (Fin D) (Fin D) ℝ

/-- `NormalFullCovariance.sufficient_statistics`, `dists/normal.py` 103-106, one row. -/
noncomputable def fnStats {D : ℕ} (x : Fin D → ℝ) : List ℝ :=
  List.ofFn x ++ flat (Matrix.of fun i j => -(1/2) * outer x i j)

/-- `NormalFullCovariance.natural_parameters`, `dists/normal.py` 179-204. -/
noncomputable def fnNatural {D : ℕ} (p : FN D) : Except Err (List ℝ) :=
  match tinverse p.cov with
  | .error e => .error e
  | .ok prec => .ok (List.ofFn (prec.mulVec p.mean) ++ flat prec)

/-- `NormalFullCovariance.expected_sufficient_statistics`, `dists/normal.py` 108-143, one distribution. -/
noncomputable def fnExpStats {D : ℕ} (p : FN D) : List ℝ :=
  List.ofFn p.mean ++ flat (Matrix.of fun i j => -(1/2) * (p.cov i j + outer p.mean i j))

/-- `NormalFullCovariance.log_norm`, `dists/normal.py` 148-162, one distribution. -/
noncomputable def fnLogNorm {D : ℕ} (p : FN D) : Except Err ℝ :=
  match tcholesky p.cov with
  | .error e => .error e
  | .ok L =>
    let logdet := 2 * ∑ i, log (L i i)
    match tinverse p.cov with
    | .error e => .error e
    | .ok prec =>
      .ok ((1/2) * (logdet + ∑ i, prec.mulVec p.mean i * p.mean i) + (1/2) * (D : ℝ) * log (2 * π))

/-- One row of `forward`, `dists/normal.py` 72-98: natural parameters, log-determinant of the covariance
from its Cholesky factor, log-normaliser, then the values for all the rows of statistics. -/
noncomputable def fnForwardRow {D : ℕ} (stats : List (List ℝ)) (p : FN D) : Except Err (List ℝ) :=
  match fnNatural p with
  | .error e => .error e
  | .ok n =>
    match tcholesky p.cov with
    | .error e => .error e
    | .ok L =>
      let logdet := 2 * ∑ i, log (L i i)
      let mSm := ∑ i : Fin D, (n.take D).getD i 0 * p.mean i
      let lnorm := (1/2) * (logdet + mSm)
      .ok (stats.map fun s => vdot n s - lnorm + normBase D)

/-- `forward(stats)` for a batch, `dists/normal.py` 71-101: here the log-normaliser is `lnorm[:, None]`. -/
noncomputable def fnForward {D : ℕ} (ps : List (FN D)) (stats : List (List ℝ)) :
    Except Err (List (List ℝ)) :=
  ps.mapM (fnForwardRow stats)

/-- `forward(stats)` for a single distribution: `cov` is not given a batch dimension (lines 77-79),
so that `L[:, range(dim), range(dim)]` (line 87) indexes a 2-D tensor with three indices. -/
noncomputable def fnForwardSingle {D : ℕ} (p : FN D) (_stats : List (List ℝ)) :
    Except Err (List ℝ) :=
  match fnNatural p with
  | .error e => .error e
  | .ok _ =>
    match tcholesky p.cov with
    | .error e => .error e
    | .ok _ => .error .indexError

/-- `NormalFullCovariance.sample`, `dists/normal.py` 164-177, one distribution, one draw, given the
standard normal draw `eps`: `mean + eps @ L.t()`. -/
noncomputable def fnSample {D : ℕ} (p : FN D) (eps : Fin D → ℝ) : Except Err (Fin D → ℝ) :=
  match tcholesky p.cov with
  | .error e => .error e
  | .ok L => .ok (p.mean + L.mulVec eps)

/-- The dimension recovered from the length of the natural parameters, `dists/normal.py` 31-40. -/
noncomputable def fnDim (l : ℕ) : ℕ := ⌊(1/2 : ℝ) * (-1 + √(1 + 4 * (l : ℝ)))⌋₊

/-- `NormalFullCovarianceStdParams.from_natural_parameters`, `dists/normal.py` 25-49, for a batch of rows
(a 1-D vector is one row); `(mean, cov)` per row.  `np2` has shape `(n, dim ** 2)` when `inverse` is
called (line 44), which raises unless it is square; then `cov * np1` (line 45) multiplies shapes
`(n, dim ** 2)` and `(n, dim)`, which raises unless `dim` is one.  The value is written for this only
remaining case, `dim = n = 1` (empty tensors are not modelled: they raise here). -/
noncomputable def fnFromNatural (rows : List (List ℝ)) : Except Err (List (ℝ × ℝ)) :=
  match rows with
  | [] => .error .runtimeError
  | r :: _ =>
    let dim := fnDim r.length
    if rows.length ≠ dim ^ 2 then .error .runtimeError
    else if dim ≠ 1 then .error .runtimeError
    else rows.mapM fun r =>
      let np1 := r.getD 0 0
      let np2 := r.getD 1 0
      if np2 = 0 then .error .runtimeError
      else
        let cov := 1 / np2
        .ok (cov * np1, cov)

/-- `kl_div(pdf1, pdf2)`, `basedist.py` 243-263, for two full-covariance normals. -/
noncomputable def fnKl {D D' : ℕ} (p : FN D) (q : FN D') : Except Err ℝ :=
  if D ≠ D' then .error .dimMismatch else
  match fnNatural p with
  | .error e => .error e
  | .ok n1 =>
    match fnNatural q with
    | .error e => .error e
    | .ok n2 =>
      match fnLogNorm p with
      | .error e => .error e
      | .ok l1 =>
        match fnLogNorm q with
        | .error e => .error e
        | .ok l2 => .ok (l2 - l1 - vdot (fnExpStats p) (vsub n2 n1))

end Verif.Dists
