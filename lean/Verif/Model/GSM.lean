import Mathlib.Logic.Equiv.Fin.Basic
import Verif.Model.VAE

/-!
# Model of the subspace models, `beer/models/gsm.py`

Tensors are functions on `Fin`; `reshape` is written with explicit row-major indices, since the
layout of the samples is what the properties are about.  The random draws are arguments.  Latent
posteriors have a diagonal covariance in the objective (`cov_type='diagonal'`, the default and the only
one used by the commands); the full-covariance parametrisation is modelled on its own.  The conversion of
one real super-vector into one pdf-vector is an arbitrary function (`_pdfvecs` works row by row, see
`Model/ModelSet`); the latent prior is any model (statistics of one vector, expected log-likelihood
of a batch of statistics).
-/

namespace Verif.GSM

open Real Verif.Dists

/-! ## Reshaping -/

/-- `x.reshape(-1, ...)`: the first two dimensions are merged, row-major. -/
def merge {α : Type*} {A B : ℕ} (x : Fin A → Fin B → α) : Fin (A * B) → α :=
  fun k => x k.divNat k.modNat

/-- `y.reshape(A, B, ...)` with `A * B` rows: the first dimension is split, row-major. -/
def split {α : Type*} {A B : ℕ} (y : Fin (A * B) → α) : Fin A → Fin B → α :=
  fun a b => y (finProdFinEquiv (a, b))

/-! ## Parametrisations trained by gradient descent -/

/-- `_MeanLogDiagCov`, lines 25-43, one distribution. -/
structure MLDC (D : ℕ) where
  mean : Fin D → ℝ
  logVar : Fin D → ℝ

/-- `diag_cov`, lines 45-47. -/
noncomputable def MLDC.diagCov {D : ℕ} (p : MLDC D) (d : Fin D) : ℝ := 1 / 10000 + exp (p.logVar d)

/-- The normal distribution holding these parameters. -/
noncomputable def MLDC.nd {D : ℕ} (p : MLDC D) : ND ℝ := ⟨List.ofFn p.mean, List.ofFn p.diagCov⟩

/-- `sample`, `normaldiag.py` 152-164, one draw. -/
noncomputable def MLDC.sample {D : ℕ} (p : MLDC D) (eps : Fin D → ℝ) : Fin D → ℝ :=
  fun d => (ndSample p.nd (List.ofFn eps)).getD d 0

/-- `_MeanLogDiagLL`, lines 50-75, one distribution. -/
structure MLLL (D : ℕ) where
  mean : Fin D → ℝ
  logDiag : Fin D → ℝ
  off : List ℝ

/-- `tril_indices`, lines 87-88: the positions of the non-zero elements of a strictly lower triangular
matrix of ones, row by row. -/
def trilIndices (D : ℕ) : List (Fin D × Fin D) :=
  ((List.finRange D).flatMap fun i => (List.finRange D).map fun j => (i, j)).filter
    fun ij => ij.2 < ij.1

/-- `L[:, rows, cols] = values`, line 91: one write after the other. -/
def writeAll {D : ℕ} (L : Fin D → Fin D → ℝ) (w : List ((Fin D × Fin D) × ℝ)) : Fin D → Fin D → ℝ :=
  w.foldl (fun L e => fun i j => if (i, j) = e.1 then e.2 else L i j) L

/-- `L` in `cov`, lines 79-91.  The values must be as many as the positions, or one. -/
noncomputable def MLLL.factor {D : ℕ} (p : MLLL D) : Except Err (Matrix (Fin D) (Fin D) ℝ) :=
  let idx := trilIndices D
  let L0 : Fin D → Fin D → ℝ := fun i j => if i = j then 1 / 1000 + exp (p.logDiag i) else 0
  if p.off.length = idx.length then .ok (Matrix.of (writeAll L0 (idx.zip p.off)))
  else match p.off with
    | [v] => .ok (Matrix.of (writeAll L0 (idx.map fun ij => (ij, v))))
    | _ => .error .runtimeError

/-- `cov`, lines 77-93. -/
noncomputable def MLLL.cov {D : ℕ} (p : MLLL D) : Except Err (Matrix (Fin D) (Fin D) ℝ) :=
  match p.factor with
  | .error e => .error e
  | .ok L => .ok (L * L.transpose)

/-- A latent posterior. -/
inductive LPost (D : ℕ) where
  | diag (p : MLDC D)
  | full (p : MLLL D)

/-- `new_latent_posteriors`, lines 554-575 (and 209-230), for a latent space of dimension `dim`.
`int(.5 * dim * (dim - 1))` truncates. -/
noncomputable def newLatentPosteriors (dim nposts : ℕ) (covType : String) :
    Except Err (List (LPost dim)) :=
  if covType ≠ "full" ∧ covType ≠ "diagonal" then .error .unknownCov
  else if dim = 0 then .error .valueError
  else
    let logd : Fin dim → ℝ := fun _ => 0 - log dim
    if covType = "full" then
      .ok (List.replicate nposts (.full ⟨fun _ => 0, logd,
        List.replicate ⌊(1/2 : ℝ) * dim * (dim - 1)⌋₊ 0⟩))
    else .ok (List.replicate nposts (.diag ⟨fun _ => 0, logd⟩))

/-! ## Transforms -/

/-- `AffineTransform`, lines 98-151: priors and posteriors of the weights and of the bias. -/
structure Affine (I O : ℕ) where
  priorW : MLDC (I * O)
  postW : MLDC (I * O)
  priorB : MLDC O
  postB : MLDC O

/-- `AffineTransform.create`, lines 101-133: `math.log` refuses what is not positive. -/
noncomputable def Affine.create (I O : ℕ) (strength : ℝ) : Except Err (Affine I O) :=
  if strength ≤ 0 then .error .valueError
  else
    let ls := -log strength
    .ok ⟨⟨fun _ => 0, fun _ => 0 + ls⟩, ⟨fun _ => 0, fun _ => 0⟩,
      ⟨fun _ => 0, fun _ => 0 + ls⟩, ⟨fun _ => 0, fun _ => 0⟩⟩

/-- The dimensions read from the priors, lines 142-143: `(in_dim, out_dim)`. -/
def affineDims (wdim bdim : ℕ) : Except Err (ℕ × ℕ) :=
  if bdim = 0 then .error .zeroDivision else .ok (wdim / bdim, bdim)

/-- One row of `torch.matmul(X[None], s_W) + s_b[:, None, :]`, where the weights are a row of numbers
cut into an `(in_dim, out_dim)` matrix, lines 156-157 and 246-249. -/
def affineRow {I O : ℕ} (w : Fin (I * O) → ℝ) (b : Fin O → ℝ) (x : Fin I → ℝ) : Fin O → ℝ :=
  fun o => ∑ i, x i * split w i o + b o

/-- `AffineTransform.forward`, lines 153-164; the result is indexed by data point, sample, dimension. -/
noncomputable def Affine.forward {I O M P : ℕ} (t : Affine I O) (epsW : Fin P → Fin (I * O) → ℝ)
    (epsB : Fin P → Fin O → ℝ) (X : Fin M → Fin I → ℝ) : Fin M → Fin P → Fin O → ℝ :=
  let sB := fun p => t.postB.sample (epsB p)
  let sW := fun p => t.postW.sample (epsW p)
  fun m p => affineRow (sW p) (sB p) (X m)

/-- `LinearTransform.forward`, lines 304-314, with posterior `postW` of the weights. -/
noncomputable def linearForward {I O M P : ℕ} (postW : MLDC (I * O)) (epsW : Fin P → Fin (I * O) → ℝ)
    (X : Fin M → Fin I → ℝ) : Fin M → Fin P → Fin O → ℝ :=
  let sW := fun p => postW.sample (epsW p)
  fun m p o => ∑ i, X m i * split (sW p) i o

/-- `_rvecs_from_samples`, lines 476-480: the samples of all the models are merged, transformed, and
the result cut again into one block per model. -/
def rvecsFromSamples {N L P I R : ℕ}
    (transform : (Fin (N * L) → Fin I → ℝ) → Fin (N * L) → Fin P → Fin R → ℝ)
    (s : Fin N → Fin L → Fin I → ℝ) : Fin N → Fin (L * P) → Fin R → ℝ :=
  let rvecs := transform (merge s)
  split fun k => merge rvecs (Fin.cast (Nat.mul_assoc N L P).symm k)

/-- `HierarchicalAffineTransform.forward`, lines 233-256: the weights and the bias are the two parts
of super-vectors of the root transform.  `posts` are the samples of the latent posterior (one
posterior, `A` samples). -/
noncomputable def hierForward {H I O M A B : ℕ} (root : Affine H (I * O + O))
    (posts : Fin 1 → Fin A → Fin H → ℝ) (epsW : Fin B → Fin (H * (I * O + O)) → ℝ)
    (epsB : Fin B → Fin (I * O + O) → ℝ) (X : Fin M → Fin I → ℝ) :
    Fin M → Fin (1 * (A * B)) → Fin O → ℝ :=
  let rvec := rvecsFromSamples (root.forward epsW epsB) posts
  let sW := merge fun n k j => rvec n k (Fin.castAdd O j)
  let sB := merge fun n k j => rvec n k (Fin.natAdd (I * O) j)
  fun m k => affineRow (sW k) (sB k) (X m)

/-- `_pdfvecs_from_rvecs`, lines 484-490, followed by `mean(dim=1)` (lines 549, 581, 621). -/
noncomputable def meanPdfvecs {N S R Q : ℕ} (pdfvec : (Fin R → ℝ) → Fin Q → ℝ)
    (rvecs : Fin N → Fin S → Fin R → ℝ) : Fin N → Fin Q → ℝ :=
  let pdfvecs := split fun k => pdfvec (merge rvecs k)
  fun n q => meanOver fun s => pdfvecs n s q

/-! ## The objective -/

/-- `_xentropy`, lines 459-465. -/
noncomputable def xentropy {N S I Qp : ℕ} (priorStats : (Fin I → ℝ) → Fin Qp → ℝ)
    (priorLlh : (Fin N → Fin Qp → ℝ) → Fin N → ℝ) (s : Fin N → Fin S → Fin I → ℝ) : Fin N → ℝ :=
  let stats := split fun k => priorStats (merge s k)
  fun n => -priorLlh (fun n q => meanOver fun l => stats n l q) n

/-- `_entropy`, lines 468-473, for diagonal normals. -/
noncomputable def entropyOf {N S I : ℕ} (posts : Fin N → MLDC I) (s : Fin N → Fin S → Fin I → ℝ) :
    Fin N → ℝ :=
  let stats := split fun k => ndStats (List.ofFn (merge s k))
  fun n => -ndPdfRow I (posts n).nd
    (List.ofFn fun q : Fin (I + I) => meanOver fun l => (stats n l).getD q 0)

/-- One row of `sufficient_statistics`, lines 599-603 and 736-740: the statistics of the subspace
parameters of a model, flattened, one after the other. -/
def gsmStats (stats : List (List ℝ)) : List ℝ := stats.flatten

/-- The parts of a `GSM` its objective reads, lines 528-532. -/
structure Model (I R Qp Q N : ℕ) where
  transform : Affine I R
  priorStats : (Fin I → ℝ) → Fin Qp → ℝ
  priorLlh : (Fin N → Fin Qp → ℝ) → Fin N → ℝ
  pdfvec : (Fin R → ℝ) → Fin Q → ℝ

variable {I R Qp Q N L P : ℕ}

/-- `expected_pdfvecs`, lines 577-581 (the same lines are in `new_models`, 547-549, and in the
objective, 609 and 620-621). -/
noncomputable def Model.expectedPdfvecs (g : Model I R Qp Q N) (posts : Fin N → MLDC I)
    (eps : Fin N → Fin L → Fin I → ℝ) (epsW : Fin P → Fin (I * R) → ℝ) (epsB : Fin P → Fin R → ℝ) :
    Fin N → Fin Q → ℝ :=
  let s := fun n l => (posts n).sample (eps n l)
  meanPdfvecs g.pdfvec (rvecsFromSamples (g.transform.forward epsW epsB) s)

/-- `expected_log_likelihood`, lines 605-626: one value per model; `stats` are the accumulated
statistics of the models (lines 593-603). -/
noncomputable def Model.expLlh (g : Model I R Qp Q N) (posts : Fin N → MLDC I)
    (stats : Fin N → Fin Q → ℝ) (eps : Fin N → Fin L → Fin I → ℝ) (epsW : Fin P → Fin (I * R) → ℝ)
    (epsB : Fin P → Fin R → ℝ) : Fin N → ℝ :=
  let s := fun n l => (posts n).sample (eps n l)
  let localKl := fun n => xentropy g.priorStats g.priorLlh s n - entropyOf posts s n
  let pdfvecs := g.expectedPdfvecs posts eps epsW epsB
  fun n => (∑ q, pdfvecs n q * stats n q) - localKl n

/-! ## Sets of subspace models -/

/-- The parts of a `GSMSet` its objective reads, lines 696-702: `K` classes. -/
structure SetModel (I J R Qp Q N K : ℕ) where
  transform : Affine I R
  discW : MLDC (J * R)
  means : Fin K → MLDC J
  priorStats : (Fin I → ℝ) → Fin Qp → ℝ
  priorLlh : (Fin N → Fin Qp → ℝ) → Fin N → ℝ
  pdfvec : (Fin R → ℝ) → Fin Q → ℝ

variable {J K : ℕ}

/-- `pdfvecs`, lines 766-772: super-vectors of the models plus super-vectors of the classes, for all
pairs; the first dimension of the result is the class. -/
noncomputable def SetModel.pdfvecs (g : SetModel I J R Qp Q N K) (posts : Fin N → MLDC I)
    (eps : Fin N → Fin L → Fin I → ℝ) (epsM : Fin K → Fin L → Fin J → ℝ)
    (epsW : Fin P → Fin (I * R) → ℝ) (epsB : Fin P → Fin R → ℝ) (epsD : Fin P → Fin (J * R) → ℝ) :
    Fin K → Fin N → Fin Q → ℝ :=
  let s := fun n l => (posts n).sample (eps n l)
  let sM := fun k l => (g.means k).sample (epsM k l)
  let rvecs := rvecsFromSamples (g.transform.forward epsW epsB) s
  let mrvecs := rvecsFromSamples (linearForward g.discW epsD) sM
  let frvecs := merge fun k n t r => rvecs n t r + mrvecs k t r
  split (meanPdfvecs g.pdfvec frvecs)

/-- `GSMSet.expected_log_likelihood`, lines 742-777, without the divergence of the class means: one
row per model, one column per class. -/
noncomputable def SetModel.expLlh (g : SetModel I J R Qp Q N K) (posts : Fin N → MLDC I)
    (stats : Fin N → Fin Q → ℝ) (eps : Fin N → Fin L → Fin I → ℝ) (epsM : Fin K → Fin L → Fin J → ℝ)
    (epsW : Fin P → Fin (I * R) → ℝ) (epsB : Fin P → Fin R → ℝ) (epsD : Fin P → Fin (J * R) → ℝ) :
    Fin N → Fin K → ℝ :=
  let s := fun n l => (posts n).sample (eps n l)
  let localKl := fun n => xentropy g.priorStats g.priorLlh s n - entropyOf posts s n
  let pdfvecs := g.pdfvecs posts eps epsM epsW epsB epsD
  let res : Fin K → Fin N → ℝ := fun k n => (∑ q, pdfvecs k n q * stats n q) - localKl n
  fun n k => res k n

/-- The pdf-vectors written into the models by `GSMSet.accumulate`, lines 781-783, for
responsibilities `resps`. -/
def SetModel.weighted (resps : Fin N → Fin K → ℝ) (pdfvecs : Fin K → Fin N → Fin Q → ℝ) :
    Fin N → Fin Q → ℝ :=
  fun n q => ∑ k, resps n k * pdfvecs k n q

end Verif.GSM
