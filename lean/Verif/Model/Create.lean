import Verif.Model.VBTrain

/-!
# Creation of models

`models/normal.py` 23-129, `models/normalset.py` 28-102, `models/categorical.py` 16-19 and 42-54,
`models/mixture.py` 17-38, `models/mixtureset.py` 29-51.

The mean has `D` coordinates and matrices are `D × D`; a covariance tensor of an inconsistent size is
not modelled (the constructors store it and later calls fail).  The random numbers are an argument.
A division by zero, infinite or NaN in the code, is `0` here: it occurs for `dof = 0` (full covariance,
strength `1 - D`) and for a zero rate or shape in `Normal.cov`.
-/

namespace Verif.VB

open Matrix Real Verif.Dists

variable {D : ℕ}

/-- The `cov` argument. -/
inductive CovArg (D : ℕ) where
  /-- a tensor without dimension -/
  | scalar (x : ℝ)
  /-- a vector of one value -/
  | one (x : ℝ)
  /-- a vector with one value per coordinate -/
  | vec (v : Fin D → ℝ)
  /-- a matrix -/
  | mat (M : Matrix (Fin D) (Fin D) ℝ)

/-- `_full_cov`, `models/normal.py` 23-28. -/
def fullCov : CovArg D → CovArg D
  | .one x => .mat (x • (1 : Matrix (Fin D) (Fin D) ℝ))
  | .vec v => .mat (Matrix.diagonal v)
  | c => c

/-- `cov.inverse()`: needs a matrix. -/
noncomputable def covInverse : CovArg D → Except Err (Matrix (Fin D) (Fin D) ℝ)
  | .mat M => tinverse M
  | _ => .error .runtimeError

/-- `cov.diag()`: the diagonal of a matrix; a tensor without dimension is refused. -/
def covDiag : CovArg D → Except Err (Fin D → ℝ)
  | .mat M => .ok fun i => M i i
  | _ => .error .runtimeError

/-- `.max()` of a vector: raises when it is empty. -/
noncomputable def vecMax (v : Fin D → ℝ) : Except Err ℝ :=
  match List.ofFn v with
  | [] => .error .runtimeError
  | x :: l => .ok (l.foldl max x)

/-! ## `models/normal.py` -/

/-- `_default_fullcov_param`, `models/normal.py` 30-38. -/
noncomputable def normalFull (mean : Fin D → ℝ) (cov : CovArg D) (strength : ℝ) :
    Except Err (CParam (Σ D : ℕ, NW D)) := do
  let dof := strength + D - 1
  let inv ← covInverse (fullCov cov)
  let p : NW D := ⟨mean, strength, (1 / dof) • inv, dof⟩
  .ok ⟨⟨D, p⟩, ⟨D, p⟩⟩

/-- `_default_diagcov_param`, `models/normal.py` 40-48. -/
noncomputable def normalDiag (mean : Fin D → ℝ) (cov : CovArg D) (strength : ℝ) :
    Except Err (CParam (NG ℝ)) := do
  let variance ← covDiag (fullCov cov)
  let p : NG ℝ := ⟨List.ofFn mean, strength, strength, List.ofFn fun i => strength * variance i⟩
  .ok ⟨p, p⟩

/-- `_default_isocov_param`, `models/normal.py` 50-59. -/
noncomputable def normalIso (mean : Fin D → ℝ) (cov : CovArg D) (strength : ℝ) :
    Except Err (CParam (ING ℝ)) := do
  let diag ← covDiag (fullCov cov)
  let variance ← vecMax diag
  let p : ING ℝ := ⟨List.ofFn mean, strength, strength, strength * variance⟩
  .ok ⟨p, p⟩

/-- The parameter of a `Normal` model. -/
inductive NormalParam where
  | full (p : CParam (Σ D : ℕ, NW D))
  | diagonal (p : CParam (NG ℝ))
  | isotropic (p : CParam (ING ℝ))

/-- `s in t` for two strings: `s` is a substring of `t`. -/
def isSubstr (s t : String) : Bool := (t.toList.tails.any fun l => s.toList.isPrefixOf l)

/-- `Normal.create`, `models/normal.py` 77-103: the test for unknown types is `cov_type not in cov_type`. -/
noncomputable def normalCreate (mean : Fin D → ℝ) (cov : CovArg D) (strength : ℝ) (covType : String) :
    Except Err NormalParam :=
  if ¬ isSubstr covType covType then .error .unknownCov
  else if covType = "full" then do
    let p ← normalFull mean cov strength
    .ok (.full p)
  else if covType = "diagonal" then do
    let p ← normalDiag mean cov strength
    .ok (.diagonal p)
  else if covType = "isotropic" then do
    let p ← normalIso mean cov strength
    .ok (.isotropic p)
  else .error .keyError

/-- `Normal.mean`, `models/normal.py` 113-115: first part of `expected_value` of the posterior. -/
def normalMean : NormalParam → List ℝ
  | .full p => List.ofFn (nwExpValue p.post.2).1
  | .diagonal p => p.post.mean
  | .isotropic p => p.post.mean

/-- `Normal.cov`, `models/normal.py` 117-129, with `expected_value` of `normalwishart.py` 212-217,
`normalgamma.py` 148-149, `isonormalgamma.py` 159-161. -/
noncomputable def normalCov : NormalParam → Except Err (Σ n : ℕ, Matrix (Fin n) (Fin n) ℝ)
  | .full p => do
    let c ← tinverse (nwExpValue p.post.2).2
    .ok ⟨_, c⟩
  | .diagonal p =>
    let precision := p.post.rates.map fun r => p.post.shape / r
    if 1 < precision.length then
      .ok ⟨precision.length, Matrix.diagonal fun i => 1 / precision.get i⟩
    else .ok ⟨p.post.mean.length, (1 / precision.headD 0) • 1⟩
  | .isotropic p => .ok ⟨p.post.mean.length, (1 / (p.post.shape / p.post.rate)) • 1⟩

/-! ## `normalset.py` -/

/-- The initial noise, `normalset.py` 32-33 (also 46-47, 61-62): `randn * noise_std * cov.diag().sqrt()` (`randn` given;
the square root of a negative number, which is NaN, is not modelled). -/
noncomputable def setNoise {M : ℕ} (randn : Fin M → Fin D → ℝ) (noiseStd : ℝ) (diag : Fin D → ℝ) (m : Fin M)
    (i : Fin D) : ℝ := randn m i * noiseStd * √(diag i)

/-- `_default_fullcov_param`, `normalset.py` 28-40. -/
noncomputable def normalSetFull {M : ℕ} (mean : Fin D → ℝ) (cov : CovArg D) (strength noiseStd : ℝ)
    (randn : Fin M → Fin D → ℝ) : Except Err (Fin M → CParam (Σ D : ℕ, NW D)) := do
  let c := fullCov cov
  let diag ← covDiag c
  let dof := strength + D - 1
  let inv ← covInverse c
  .ok fun m => ⟨⟨D, ⟨mean, strength, (1 / dof) • inv, dof⟩⟩,
    ⟨D, ⟨mean + setNoise randn noiseStd diag m, strength, (1 / dof) • inv, dof⟩⟩⟩

/-- `_default_diagcov_param`, `normalset.py` 42-54. -/
noncomputable def normalSetDiag {M : ℕ} (mean : Fin D → ℝ) (cov : CovArg D) (strength noiseStd : ℝ)
    (randn : Fin M → Fin D → ℝ) : Except Err (Fin M → CParam (NG ℝ)) := do
  let diag ← covDiag (fullCov cov)
  let rates := List.ofFn fun i => strength * diag i
  .ok fun m => ⟨⟨List.ofFn mean, strength, strength, rates⟩,
    ⟨List.ofFn (mean + setNoise randn noiseStd diag m), strength, strength, rates⟩⟩

/-- `_default_isocov_param`, `normalset.py` 56-69. -/
noncomputable def normalSetIso {M : ℕ} (mean : Fin D → ℝ) (cov : CovArg D) (strength noiseStd : ℝ)
    (randn : Fin M → Fin D → ℝ) : Except Err (Fin M → CParam (ING ℝ)) := do
  let diag ← covDiag (fullCov cov)
  let variance ← vecMax diag
  .ok fun m => ⟨⟨List.ofFn mean, strength, strength, strength * variance⟩,
    ⟨List.ofFn (mean + setNoise randn noiseStd diag m), strength, strength, strength * variance⟩⟩

/-- The parameter of a `NormalSet`. -/
inductive NormalSetParam (M : ℕ) where
  | full (p : Fin M → CParam (Σ D : ℕ, NW D))
  | diagonal (p : Fin M → CParam (NG ℝ))
  | isotropic (p : Fin M → CParam (ING ℝ))

/-- `NormalSet.create`, `normalset.py` 83-102 (`shared_cov` only prints a warning). -/
noncomputable def normalSetCreate {M : ℕ} (mean : Fin D → ℝ) (cov : CovArg D) (strength noiseStd : ℝ)
    (covType : String) (randn : Fin M → Fin D → ℝ) : Except Err (NormalSetParam M) :=
  if ¬ isSubstr covType covType then .error .unknownCov
  else if covType = "full" then do
    let p ← normalSetFull mean cov strength noiseStd randn
    .ok (.full p)
  else if covType = "diagonal" then do
    let p ← normalSetDiag mean cov strength noiseStd randn
    .ok (.diagonal p)
  else if covType = "isotropic" then do
    let p ← normalSetIso mean cov strength noiseStd randn
    .ok (.isotropic p)
  else .error .keyError

/-! ## Weights -/

/-- `Categorical.create`, `categorical.py` 16-19, 42-54. -/
noncomputable def catCreate (weights : List ℝ) (strength : ℝ) : CParam (List ℝ) :=
  ⟨weights.map (· * strength), weights.map (· * strength)⟩

/-- `Mixture.create` without given weights, `mixture.py` 17-38: uniform weights. -/
noncomputable def mixCreate {X : Type} {K : ℕ} (inner : SetModel X K) (comps : inner.State)
    (strength : ℝ) : MixState inner :=
  ⟨catCreate (List.replicate K (1 / (K : ℝ))) strength, comps⟩

/-- The weights of `MixtureSet.create`, `mixtureset.py` 29-51, for a set of `len` models:
`len // size` components per mixture. -/
noncomputable def mixSetWeights (size len : ℕ) (strength : ℝ) : Except Err (Fin size → CParam (List ℝ)) :=
  if size = 0 then .error .zeroDivision
  else .ok fun _ => catCreate (List.replicate (len / size) (1 / ((len / size : ℕ) : ℝ))) strength

end Verif.VB
