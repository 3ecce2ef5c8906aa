import Mathlib.Algebra.Field.Basic
import Mathlib.Algebra.BigOperators.Group.List.Basic
import Verif.Model.Py

/-!
# Model of `beer/dists/*.py`: parameters, natural parameters, statistics, conjugate updates

One distribution at a time (the Python code treats a batch row by row).  A 1-D tensor is a `List K`;
`K` is a field (exact arithmetic instead of floating point).  `torch.cat` is `++`, slices are
`take`/`drop`, elementwise operations are `map`/`zipWith`.  Elementwise operations of two tensors
of different length raise in Python; in the model they appear only between vectors whose lengths
agree by construction, and the theorems assume the lengths agree.
-/

namespace Verif.Dists

variable {K : Type*} [Field K]

/-! ## Vector operations -/

/-- Elementwise sum. -/
def vadd (a b : List K) : List K := List.zipWith (· + ·) a b

/-- Elementwise difference. -/
def vsub (a b : List K) : List K := List.zipWith (· - ·) a b

/-- Scalar times vector. -/
def vsmul (c : K) (a : List K) : List K := a.map (c * ·)

/-- Inner product `stats @ pdfvec`. -/
def vdot (a b : List K) : K := (List.zipWith (· * ·) a b).sum

/-- `resps.t() @ stats` for one component (or `stats.sum(dim=0)` when all weights are one):
the weighted sum of rows of length `n`. -/
def wsum (n : ℕ) : List (K × List K) → List K
  | [] => List.replicate n 0
  | (r, row) :: rest => vadd (vsmul r row) (wsum n rest)

/-! ## `models/parameters.py` 134-141 : `ConjugateBayesianParameter.natural_grad_update` -/

/-- `new = post + lrate * (prior + stats - post)`, then `update_from_natural_parameters`. -/
def natGradUpdate {P : Type*} (natural : P → List K) (fromNatural : List K → Except Err P)
    (prior post : P) (stats : List K) (lrate : K) : Except Err P :=
  fromNatural (vadd (natural post)
    (vsmul lrate (vsub (vadd (natural prior) stats) (natural post))))

/-- A whole training: a sequence of updates, each with its learning rate and statistics. -/
def trainRun {P : Type*} (natural : P → List K) (fromNatural : List K → Except Err P)
    (prior : P) : P → List (K × List K) → Except Err P
  | post, [] => .ok post
  | post, (lrate, stats) :: rest =>
    match natGradUpdate natural fromNatural prior post stats lrate with
    | .error e => .error e
    | .ok post' => trainRun natural fromNatural prior post' rest

/-! ## `dists/dirichlet.py` -/

/-- `Dirichlet.natural_parameters`, lines 144-159: `a - 1` with the last coordinate replaced by the
sum of all `a_i - 1`. -/
def dirNatural (c : List K) : List K :=
  (c.map (· - 1)).dropLast ++ [(c.map (· - 1)).sum]

/-- `DirichletStdParams.from_natural_parameters`, lines 70-82.  An empty vector raises when column
`-1` is read. -/
def dirFromNatural (n : List K) : Except Err (List K) :=
  match n.getLast? with
  | none => .error .indexError
  | some last =>
    .ok ((n.map (· + 1)).dropLast ++ [last - ((n.map (· + 1)).dropLast.map (· - 1)).sum + 1])

/-- `CategoricalLikelihood.sufficient_statistics`, lines 18-21: the last column is overwritten by
the sum of the row. -/
def catStats (x : List K) : List K := x.dropLast ++ [x.sum]

/-- `Dirichlet.expected_value`, lines 130-133. -/
def dirMean (c : List K) : List K := c.map (· / c.sum)

/-! ## `dists/gamma.py` -/

/-- `GammaStdParams`. -/
structure GammaP (K : Type*) where
  shape : List K
  rate : List K
deriving DecidableEq

/-- `Gamma.natural_parameters`, lines 130-140. -/
def gamNatural (p : GammaP K) : List K :=
  p.rate.map (- ·) ++ p.shape.map (· - 1)

/-- `GammaStdParams.from_natural_parameters`, lines 67-77. -/
def gamFromNatural (n : List K) : Except Err (GammaP K) :=
  let dim := n.length / 2
  .ok { shape := (n.drop dim).map (· + 1), rate := (n.take dim).map (- ·) }

/-- `models/gamma.py` 82-88, `Gamma.accumulate`, applied to one row of
`GammaLikelihood.sufficient_statistics` (`(-x, ln x, 1)`, `dists/gamma.py` 21-28, `logx` standing
for `ln x`): `(-(-x), shape)`. -/
def gamModelStats (shape x logx : List K) : List K :=
  let stats := x.map (- ·) ++ logx ++ [1]
  let dim := stats.length / 2
  (stats.take dim).map (- ·) ++ ((stats.take dim).map (fun _ => (1 : K))).zipWith (· * ·) shape

/-! ## `dists/normalgamma.py` -/

/-- `NormalGammaStdParams` (one distribution: `scale` and `shape` have one element). -/
structure NG (K : Type*) where
  mean : List K
  scale : K
  shape : K
  rates : List K
deriving DecidableEq

/-- `NormalGamma.natural_parameters`, lines 163-180. -/
def ngNatural (p : NG K) : List K :=
  p.mean.map (p.scale * ·) ++
  List.zipWith (fun m b => -(1/2) * p.scale * m ^ 2 - b) p.mean p.rates ++
  [-(1/2) * p.scale, p.shape - 1/2]

/-- `NormalGammaStdParams.from_natural_parameters`, lines 76-94.  The columns `-2` and `-1` raise
when there are fewer than two. -/
def ngFromNatural (n : List K) : Except Err (NG K) :=
  if n.length < 2 then .error .indexError else
  let dim := (n.length - 2) / 2
  let np1 := n.take dim
  let np2 := (n.take (2 * dim)).drop dim
  let np3 := n.getD (n.length - 2) 0
  let np4 := n.getD (n.length - 1) 0
  let scale := -2 * np3
  let shape := np4 + 1/2
  let mean := np1.map (· / scale)
  .ok { mean := mean, scale := scale, shape := shape,
        rates := List.zipWith (fun b m => -b - (1/2) * scale * m ^ 2) np2 mean }

/-- `NormalDiagonalLikelihood.sufficient_statistics`, lines 19-27. -/
def ngStats (x : List K) : List K :=
  x ++ x.map (fun v => -(1/2) * v ^ 2) ++ [-(1/2), 1/2]

/-! ## `dists/isonormalgamma.py` -/

/-- `IsotropicNormalGammaStdParams`. -/
structure ING (K : Type*) where
  mean : List K
  scale : K
  shape : K
  rate : K
deriving DecidableEq

/-- `IsotropicNormalGamma.natural_parameters`, lines 174-192. -/
def ingNatural (p : ING K) : List K :=
  p.mean.map (p.scale * ·) ++
  [-(1/2) * p.scale * (p.mean.map (· ^ 2)).sum - p.rate,
   -(1/2) * p.scale, p.shape - 1 + (1/2) * (p.mean.length : K)]

/-- `IsotropicNormalGammaStdParams.from_natural_parameters`, lines 77-95. -/
def ingFromNatural (n : List K) : Except Err (ING K) :=
  if n.length < 3 then .error .indexError else
  let dim := n.length - 3
  let np1 := n.take dim
  let np2 := n.getD dim 0
  let np3 := n.getD (n.length - 2) 0
  let np4 := n.getD (n.length - 1) 0
  let scale := -2 * np3
  let shape := np4 + 1 - (1/2) * (dim : K)
  let mean := np1.map (· / scale)
  .ok { mean := mean, scale := scale, shape := shape,
        rate := -np2 - (1/2) * scale * (mean.map (fun m => m * m)).sum }

/-- `IsotropicNormalLikelihood.sufficient_statistics`, lines 20-30. -/
def ingStats (x : List K) : List K :=
  x ++ [-(1/2) * (x.map (· ^ 2)).sum, -(1/2), (1/2) * (x.length : K)]

/-! ## `dists/normaldiag.py` -/

/-- `NormalDiagonalCovarianceStdParams`. -/
structure ND (K : Type*) where
  mean : List K
  diagCov : List K
deriving DecidableEq

/-- `NormalDiagonalCovariance.natural_parameters`, lines 166-189. -/
def ndNatural (p : ND K) : List K :=
  List.zipWith (fun s m => 1 / s * m) p.diagCov p.mean ++ p.diagCov.map (1 / ·)

/-- `NormalDiagonalCovarianceStdParams.from_natural_parameters`, lines 58-65.  (Division by zero
gives an infinity in torch and `0` here; no theorem uses that case.) -/
def ndFromNatural (n : List K) : ND K :=
  let dim := n.length / 2
  let np1 := n.take dim
  let np2 := (n.take (2 * dim)).drop dim
  let diagCov := np2.map (fun v => 1 / (-2 * v))
  { mean := List.zipWith (· * ·) diagCov np1, diagCov := diagCov }

end Verif.Dists
