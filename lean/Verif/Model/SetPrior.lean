import Verif.Model.GSM

/-!
# Prior of a subspace model taken from another one
(`cli/subcommands/shmm/setprior.py`, `cli/subcommands/shmm/init.py`, and `_update_params`, `_update_models` of
`beer/models/gsm.py`)

Files are represented by their content. The emissions of a group are given as the list of its units (`iterate_units`,
`cli/subcommands/shmm/setprior.py` 16-19, is modelled in `Model/SPhoneLoop`), a unit as the list of its subspace parameters; writing the
pdf-vector of a unit writes that of the group (`Model/Views`). Both subspace models have the same dimensions. The random
draws are arguments. The latent prior is represented by its mean and its covariance.
-/

namespace Verif.SetPrior

open Real Verif.GSM

/-! ## Writing pdf-vectors into models -/

/-- A subspace parameter of a unit: the number of its statistics and its pdf-vector, flattened. -/
structure SParam where
  numel : ℕ
  pdfvec : List ℝ

/-- `_update_params`, `gsm.py` 444-450, from index `idx` on: `reshape` refuses a slice that is too short. -/
def writeParams (pdfvecs : List ℝ) : List SParam → ℕ → Except Err (List SParam)
  | [], _ => .ok []
  | p :: ps, idx =>
    let slice := (pdfvecs.drop idx).take p.numel
    if slice.length ≠ p.numel then .error .runtimeError
    else
      match writeParams pdfvecs ps (idx + p.numel) with
      | .error e => .error e
      | .ok ps => .ok (⟨p.numel, slice⟩ :: ps)

/-- `_update_models`, `gsm.py` 453-456: `zip` stops with the shortest of the two, the other models are left as they
are. -/
def writeModels : List (List SParam) → List (List ℝ) → Except Err (List (List SParam))
  | m :: ms, v :: vs =>
    match writeParams v m 0 with
    | .error e => .error e
    | .ok m =>
      match writeModels ms vs with
      | .error e => .error e
      | .ok ms => .ok (m :: ms)
  | ms, _ => .ok ms

/-! ## The commands -/

/-- What the commands read and write of a `GSM`, `gsm.py` 528-532. -/
structure Gsm (I R Q : ℕ) where
  transform : Affine I R
  priorMean : Fin I → ℝ
  priorCov : Matrix (Fin I) (Fin I) ℝ
  pdfvec : (Fin R → ℝ) → Fin Q → ℝ

/-- The file of the latent posteriors: four elements, and the labels for a model with classes
(`cli/subcommands/shmm/mksphoneloop.py` 184-187). -/
structure PostsFile (I N : ℕ) where
  posts : Fin N → MLDC I
  nunits : ℕ
  nstates : ℕ
  groupidx : ℕ
  labels : Option (List ℕ)

variable {I R Q N M : ℕ}

/-- `latent_posts, nunits, nstates, groupidx = pickle.load(f)`, `cli/subcommands/shmm/setprior.py` 50 and `cli/subcommands/shmm/init.py` 36. -/
def unpack (f : PostsFile I N) : Except Err ((Fin N → MLDC I) × ℕ × ℕ × ℕ) :=
  match f.labels with
  | some _ => .error .valueError
  | none => .ok (f.posts, f.nunits, f.nstates, f.groupidx)

/-- `expected_pdfvecs(latent_posts)`, `gsm.py` 577-581, with one sample of each. -/
noncomputable def pdfvecsOf (g : Gsm I R Q) (posts : Fin N → MLDC I) (eps : Fin N → Fin I → ℝ)
    (epsW : Fin (I * R) → ℝ) (epsB : Fin R → ℝ) : List (List ℝ) :=
  let model : GSM.Model I R 0 Q N := ⟨g.transform, fun _ => Fin.elim0, fun _ _ => 0, g.pdfvec⟩
  let pdfvecs := model.expectedPdfvecs posts (fun n (_ : Fin 1) => eps n) (fun (_ : Fin 1) => epsW)
    (fun (_ : Fin 1) => epsB)
  List.ofFn fun n => List.ofFn (pdfvecs n)

/-- The new transform, `cli/subcommands/shmm/setprior.py` 63-85: `math.log` refuses what is not positive. -/
noncomputable def setTransform (var : ℝ) (t tInit : Affine I R) : Except Err (Affine I R) :=
  if var ≤ 0 then .error .valueError
  else
    let logvar := log var
    let priorW : MLDC (I * R) := ⟨tInit.postW.mean, fun _ => 0 + logvar⟩
    let priorB : MLDC R := ⟨tInit.postB.mean, fun _ => 0 + logvar⟩
    let t := { t with priorW := priorW, priorB := priorB }
    .ok { t with postW := ⟨t.priorW.mean, t.priorW.logVar⟩, postB := ⟨t.priorB.mean, t.priorB.logVar⟩ }

/-- The new latent posteriors, `cli/subcommands/shmm/setprior.py` 89-100; `noise` is the result of `torch.randn`. -/
noncomputable def setPosts (gInit : Gsm I R Q) (posts : Fin N → MLDC I) (postsInit : Fin M → MLDC I)
    (noise : Fin (N - min N M) → Fin I → ℝ) : Fin N → MLDC I :=
  let posts := fun n : Fin N =>
    if h : n.1 < min N M then
      let p := postsInit ⟨n.1, lt_of_lt_of_le h (min_le_right N M)⟩
      (⟨p.mean, p.logVar⟩ : MLDC I)
    else posts n
  if min N M < N then
    fun n =>
      if h : n.1 < min N M then posts n
      else
        ⟨fun i => gInit.priorMean i +
          noise ⟨n.1 - min N M, Nat.sub_lt_sub_right (Nat.le_of_not_lt h) n.2⟩ i * √(gInit.priorCov i i),
          (posts n).logVar⟩
  else posts

/-- The draws of `shmm setprior`. -/
structure Noise (I R N M : ℕ) where
  new : Fin (N - min N M) → Fin I → ℝ
  unit : Fin N → Fin I → ℝ
  weights : Fin (I * R) → ℝ
  bias : Fin R → ℝ

/-- What `shmm setprior` saves. -/
structure Saved (I R Q N : ℕ) where
  gsm : Gsm I R Q
  posts : PostsFile I N
  units : List (List SParam)

/-- `shmm setprior`, `cli/subcommands/shmm/setprior.py` 35-119; `groups` are the units of the groups of the phone-loop. -/
noncomputable def setPrior (var : ℝ) (gsm : Gsm I R Q) (file : PostsFile I N) (groups : List (List (List SParam)))
    (gInit : Gsm I R Q) (fileInit : PostsFile I M) (e : Noise I R N M) : Except Err (Saved I R Q N) :=
  match unpack file with
  | .error err => .error err
  | .ok (posts, nunits, nstates, groupidx) =>
    match unpack fileInit with
    | .error err => .error err
    | .ok (postsInit, _, _, _) =>
      match groups[groupidx]? with
      | none => .error .indexError
      | some group =>
        match setTransform var gsm.transform gInit.transform with
        | .error err => .error err
        | .ok t =>
          let gsm := { gsm with transform := t }
          let posts := setPosts gInit posts postsInit e.new
          match writeModels (group.take nunits) (pdfvecsOf gsm posts e.unit e.weights e.bias) with
          | .error err => .error err
          | .ok units =>
            let gsm := { gsm with priorMean := gInit.priorMean, priorCov := gInit.priorCov }
            .ok ⟨gsm, ⟨posts, nunits, nstates, groupidx, none⟩, units⟩

/-- `shmm init`, `cli/subcommands/shmm/init.py` 29-52: the units of the saved phone-loop. -/
noncomputable def initLoop (gsm : Gsm I R Q) (file : PostsFile I N) (groups : List (List (List SParam)))
    (eps : Fin N → Fin I → ℝ) (epsW : Fin (I * R) → ℝ) (epsB : Fin R → ℝ) : Except Err (List (List SParam)) :=
  match unpack file with
  | .error err => .error err
  | .ok (posts, nunits, _, groupidx) =>
    match groups[groupidx]? with
    | none => .error .indexError
    | some group => writeModels (group.take nunits) (pdfvecsOf gsm posts eps epsW epsB)

end Verif.SetPrior
