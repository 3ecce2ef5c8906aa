import Mathlib.Analysis.Real.Sqrt
import Mathlib.Analysis.SpecialFunctions.Exp
import Mathlib.LinearAlgebra.Matrix.NonsingularInverse
import Mathlib.Algebra.Order.Floor.Semiring
import Verif.Model.Likelihood

/-!
# Model of `beer/dists/normalwishart.py`

One distribution at a time, exact real arithmetic.  A `D × D` tensor is a `Matrix`; `reshape(-1)` of
it is the row-major list `flat`, `reshape(dim, dim)` of a vector is `unflat`.  `inverse()` raises on
a singular matrix.
-/

namespace Verif.Dists

open Real

/-- `M.reshape(-1)`. -/
def flat {D : ℕ} (M : Matrix (Fin D) (Fin D) ℝ) : List ℝ :=
  List.ofFn fun k : Fin (D * D) => M k.divNat k.modNat

/-- `v.reshape(dim, dim)`. -/
def unflat (D : ℕ) (l : List ℝ) : Matrix (Fin D) (Fin D) ℝ :=
  Matrix.of fun i j => l.getD (i.val * D + j.val) 0

/-- `m[:, None] * m[None, :]`. -/
def outer {D : ℕ} (m : Fin D → ℝ) : Matrix (Fin D) (Fin D) ℝ := Matrix.of fun i j => m i * m j

/-- `torch.Tensor.inverse`: raises on a singular matrix. -/
noncomputable def tinverse {D : ℕ} (M : Matrix (Fin D) (Fin D) ℝ) :
    Except Err (Matrix (Fin D) (Fin D) ℝ) :=
  if M.det = 0 then .error .runtimeError else .ok M⁻¹

/-- `NormalWishartStdParams` for one distribution of dimension `D`, lines 96-107. -/
@[ext] structure NW (D : ℕ) where
  mean : Fin D → ℝ
  scale : ℝ
  W : Matrix (Fin D) (Fin D) ℝ
  dof : ℝ

/-- `NormalWishart.natural_parameters`, lines 242-269. -/
noncomputable def nwNatural {D : ℕ} (p : NW D) : Except Err (List ℝ) :=
  match tinverse p.W with
  | .error e => .error e
  | .ok Winv =>
    .ok (List.ofFn (fun i => p.scale * p.mean i) ++
      flat (Matrix.of fun i j => -(1/2) * (Winv i j + p.scale * outer p.mean i j)) ++
      [-(1/2) * p.scale, (1/2) * (p.dof - (D : ℝ))])

/-- Lines 115-124: the dimension is recovered from the length of the vector; `math.sqrt` of a
negative number raises, `int` truncates. -/
noncomputable def nwDim (len : ℕ) : Except Err ℕ :=
  let l : ℝ := (len : ℝ) - 2
  if 1 + 4 * l < 0 then .error .valueError
  else .ok ⌊(1/2) * (-1 + √(1 + 4 * l))⌋₊

/-- Lines 126-135, the dimension being known.  (Floating point division by a zero scale gives
infinities, not modelled.) -/
noncomputable def nwFromNaturalDim (dim : ℕ) (n : List ℝ) : Except Err (NW dim) :=
  let np1 : Fin dim → ℝ := fun i => (n.take dim).getD i.val 0
  let np2 := (n.take (dim * (dim + 1))).drop dim
  let np3 := n.getD (n.length - 2) 0
  let np4 := n.getD (n.length - 1) 0
  let scale := -2 * np3
  let mean : Fin dim → ℝ := fun i => np1 i / scale
  match tinverse (Matrix.of fun i j => -2 * unflat dim np2 i j - scale * outer mean i j) with
  | .error e => .error e
  | .ok W => .ok { mean := mean, scale := scale, W := W, dof := 2 * np4 + (dim : ℝ) }

/-- `NormalWishartStdParams.from_natural_parameters`, lines 109-141. -/
noncomputable def nwFromNatural (n : List ℝ) : Except Err (Σ D : ℕ, NW D) :=
  match nwDim n.length with
  | .error e => .error e
  | .ok dim =>
    match nwFromNaturalDim dim n with
    | .error e => .error e
    | .ok p => .ok ⟨dim, p⟩

/-- `NormalLikelihood.sufficient_statistics`, lines 29-38, one data point. -/
noncomputable def nwStats {D : ℕ} (x : Fin D → ℝ) : List ℝ :=
  List.ofFn x ++ flat (Matrix.of fun i j => -(1/2) * outer x i j) ++ [-(1/2), 1/2]

/-- `NormalLikelihood.sufficient_statistics_dim`, lines 24-27. -/
def nwStatsDim (d : ℕ) (zeroStats : Bool) : ℕ :=
  2 * d + d * (d - 1) / 2 + (if zeroStats then 2 else 0)

/-- `ConjugateBayesianParameter.natural_grad_update`, `models/parameters.py` 134-141, for a
Normal-Wishart. -/
noncomputable def nwUpdate {D : ℕ} (prior post : NW D) (stats : List ℝ) (lrate : ℝ) :
    Except Err (Σ D : ℕ, NW D) :=
  match nwNatural prior with
  | .error e => .error e
  | .ok n0 =>
    match nwNatural post with
    | .error e => .error e
    | .ok n1 => nwFromNatural (vadd n1 (vsmul lrate (vsub (vadd n0 stats) n1)))

/-! ## `NormalLikelihood` on real vectors, lines 40-92 -/

/-- Index of `(i, j)`, `j < i`, in `arg.tril(diagonal=-1).nonzero()`, lines 68-69 (row by row). -/
def trilIdx (i j : ℕ) : ℕ := i * (i - 1) / 2 + j

/-- The lower triangular factor built from a real vector `(u, v, w)`, lines 61-74: diagonal
`exp(v/2)`, below the diagonal `w`.  Raises unless the size of `w` is `dim (dim - 1) / 2`
(broadcasting of a one-element `w` not modelled). -/
noncomputable def nwFactor (dim : ℕ) (rvec : List ℝ) : Except Err (Matrix (Fin dim) (Fin dim) ℝ) :=
  let logDiag := (rvec.take (2 * dim)).drop dim
  let off := rvec.drop (2 * dim)
  if rvec.length < 2 * dim ∨ off.length ≠ dim * (dim - 1) / 2 then .error .runtimeError
  else .ok (Matrix.of fun i j =>
    if j < i then off.getD (trilIdx i j) 0
    else if i = j then exp ((1/2) * logDiag.getD i 0)
    else 0)

/-- `pdfvectors_from_rvectors`, lines 52-86. -/
noncomputable def nwPdfvec (dim : ℕ) (rvec : List ℝ) : Except Err (List ℝ) :=
  match nwFactor dim rvec with
  | .error e => .error e
  | .ok L =>
    let mean : Fin dim → ℝ := fun i => (rvec.take dim).getD i 0
    let prec := L * L.transpose
    let Lm := L.transpose.mulVec mean
    .ok (List.ofFn (prec.mulVec mean) ++ flat prec ++
      [dotProduct Lm Lm, ((rvec.take (2 * dim)).drop dim).sum])

/-- `parameters_from_pdfvector`, lines 40-50: `(mean, precision)`. -/
noncomputable def nwParams (dim : ℕ) (pdfvec : List ℝ) :
    Except Err ((Fin dim → ℝ) × Matrix (Fin dim) (Fin dim) ℝ) :=
  let precision := unflat dim ((pdfvec.take (dim + dim ^ 2)).drop dim)
  match tinverse precision with
  | .error e => .error e
  | .ok cov => .ok (cov.mulVec (fun i => (pdfvec.take dim).getD i 0), precision)

end Verif.Dists
