import Verif.Model.VBTrain
import Verif.Model.HierGSM
import Verif.Model.ModelSet

/-!
# Mixtures trained with labels; mixtures over a set of subspace models

* `beer/models/mixture.py` 70-102 with `labels`
* `GSMSet` of `beer/models/gsm.py` 632-798 as the components of a `Mixture`, `cli/subcommands/shmm/mksphoneloop.py`
  166-176 and `cli/subcommands/shmm/train.py` 85-117.

Random draws are arguments, latent posteriors have a diagonal covariance (see `Model/GSM`).
-/

namespace Verif.VB

open Real Verif.Dists Verif.Mixture

variable {X : Type}

/-- `expected_log_likelihood` with labels, `mixture.py` 84-93, one frame: `llh` are the values of the components, `row`
the row of `onehot`. -/
noncomputable def labelledFrame {K : ℕ} (llh : Fin K → ℝ) (row : List ℕ) : LocalOut K :=
  let resps : Fin K → ℝ := fun k => ((row.getD k 0 : ℕ) : ℝ)
  ⟨resps, (∑ k, llh k * resps k) - 0⟩

/-- The local quantities of labelled frames. The expected log-weights are computed (line 73) and not used. With other
numbers of labels than of frames the product of line 92 raises, or (one label or one frame, broadcast) the matrix product
in the `accumulate` of the components. -/
noncomputable def labOuts {K : ℕ} (inner : SetModel X K) (st : MixState inner) (data : List X)
    (labels : List ℤ) : Except Err (List (LocalOut K)) := do
  let _ ← logWeights K st.weights.post
  let llhs ← data.mapM (inner.llh st.comps)
  let rows ← Utils.onehot labels K
  if labels.length ≠ data.length then .error .runtimeError
  else .ok (List.zipWith labelledFrame llhs rows)

/-- The value of `evidence_lower_bound(mixture, data, datasize, labels=labels)`, `objectives.py` 177-185. -/
noncomputable def labElbo {K : ℕ} (inner : SetModel X K) (st : MixState inner) (data : List X)
    (labels : List ℤ) (datasize : ℤ) : Except Err ℝ := do
  let scale ← batchScale data.length datasize
  let outs ← labOuts inner st data labels
  let kl ← mixKl inner st
  .ok (scale * (outs.map fun o => o.value).sum - kl)

/-- `evidence_lower_bound(…, labels=labels)`, `backward()` and `step()`: `accumulate` is the one of `mixture.py` 95-102
with the rows of `onehot` as responsibilities. -/
noncomputable def labStep {K : ℕ} (inner : SetModel X K) (st : MixState inner) (data : List X)
    (labels : List ℤ) (datasize : ℤ) (lrate : ℝ) : Except Err (MixState inner) := do
  let scale ← batchScale data.length datasize
  let outs ← labOuts inner st data labels
  let w ← (dirFam K).update st.weights (vsmul scale (mixCatStats (outs.map fun o => o.resps))) lrate
  let s ← inner.step st.comps (List.zipWith (fun x o => (x, LocalOut.resps o)) data outs) scale lrate
  .ok ⟨w, s⟩

/-- A training with labels: one step per learning rate. -/
noncomputable def labTrain {K : ℕ} (inner : SetModel X K) (data : List X) (labels : List ℤ) (datasize : ℤ) :
    MixState inner → List ℝ → Except Err (MixState inner)
  | st, [] => .ok st
  | st, l :: ls =>
    match labStep inner st data labels datasize l with
    | .error e => .error e
    | .ok st' => labTrain inner data labels datasize st' ls

end Verif.VB

namespace Verif.GSM

open Real Verif.Dists Verif.Mixture

/-- Vectors of any length as functions. -/
def pad (l : List ℝ) : ℕ → ℝ := fun i => l.getD i 0

/-- `{**a, **b}`: the second one wins. -/
def mergeAcc {V : Type} (a b : Acc V) : Acc V := fun k => match b k with
  | some v => some v
  | none => a k

/-- `Normal.accumulate`, `models/normal.py` 143-144, for the parameter `u`: the sum over the rows. -/
def normalAccP {M K : ℕ} (u : ℕ) (st : Fin M → Fin K → ℝ) : Acc (ℕ → ℝ) :=
  fun k => if k = u then some (pad (List.ofFn fun q => ∑ n, st n q)) else none

/-- `Categorical.accumulate`, `models/categorical.py` 78-79. -/
noncomputable def catAccP {M K : ℕ} (c : ℕ) (resps : Fin M → Fin K → ℝ) : Acc (ℕ → ℝ) :=
  fun k => if k = c then some (pad (mixCatStats (List.ofFn resps))) else none

/-- A `GSMSet`, `gsm.py` 696-702, with the prior of the class means. -/
structure ClassSet (I J R Qp Qd Q N K : ℕ) extends SetModel I J R Qp Q N K where
  meanStats : (Fin J → ℝ) → Fin Qd → ℝ
  meanLlh : (Fin K → Fin Qd → ℝ) → Fin K → ℝ

/-- The identities of the parameters: the two priors have one each (`Normal`, `models/normal.py` 136-137). -/
structure SetIds where
  cat : ℕ
  prior : ℕ
  means : ℕ
  meanPrior : ℕ
  weights : ℕ
  bias : ℕ
  disc : ℕ

/-- `mean_field_factorization` of the set, `gsm.py` 723-728 (with 169-170 and 319-320), in a mixture. -/
def SetIds.groups (i : SetIds) : List (List ℕ) :=
  ModelSet.mergeGroups ([[i.prior]] ++ [[i.means]] ++ [[i.meanPrior]] ++ [[i.weights, i.bias]] ++ [[i.disc]]) [[i.cat]]

/-- The noise: `L` samples of the posteriors, `P` of the transforms. -/
structure SetNoise (I J R N K L P : ℕ) where
  unit : Fin N → Fin L → Fin I → ℝ
  mean : Fin K → Fin L → Fin J → ℝ
  weights : Fin P → Fin (I * R) → ℝ
  bias : Fin P → Fin R → ℝ
  disc : Fin P → Fin (J * R) → ℝ

variable {I J R Qp Qd Q N K L P : ℕ}

/-- `dlocal_kl_div`, `gsm.py` 759-763: stored in the parameter of the class means, whose divergence it is
(641-642). -/
noncomputable def ClassSet.meansKl (g : ClassSet I J R Qp Qd Q N K) (epsM : Fin K → Fin L → Fin J → ℝ) : ℝ :=
  let s := fun k l => (g.means k).sample (epsM k l)
  ∑ k, (xentropy g.meanStats g.meanLlh s k - entropyOf g.means s k)

/-- What the mixture computes for one unit, `mixture.py` 77-93. -/
noncomputable def classLocal (lw : Fin K → ℝ) (llh : Fin K → ℝ) : Option ℤ → Except Err (LocalOut K)
  | none => .ok (mixLocal lw llh)
  | some y => match Utils.onehotRow K y with
    | .error e => .error e
    | .ok row => .ok (VB.labelledFrame llh row)

/-- `evidence_lower_bound(mixture, units, datasize, latent_posts=…, labels=…)`, `shmm/train.py` 115: the mixture has
expected log-weights `lw`; `kl` gives the divergences of the parameters but the one of the class means. The second
component are the pdf-vectors written into the units (`gsm.py` 779-783). -/
noncomputable def classElbo (kl : ℕ → ℝ) (g : ClassSet I J R Qp Qd Q N K) (ids : SetIds) (lw : Fin K → ℝ)
    (posts : Fin N → MLDC I) (stats : Fin N → Fin Q → ℝ) (e : SetNoise I J R N K L P)
    (labels : Option (Fin N → ℤ)) (datasize : ℤ) : Except Err (Elbo ℝ (ℕ → ℝ) × (Fin N → Fin Q → ℝ)) :=
  let llh := g.toSetModel.expLlh posts stats e.unit e.mean e.weights e.bias e.disc
  match VB.seqFin fun n => classLocal lw (llh n) (labels.map fun y => y n) with
  | .error err => .error err
  | .ok outs =>
    let resps := fun n => (outs n).resps
    let dstats := lpStats g.meanStats fun k l => (g.means k).sample (e.mean k l)
    let lstats := lpStats g.priorStats fun n l => (posts n).sample (e.unit n l)
    let m : BModel ℝ (ℕ → ℝ) (Fin N) :=
      { expLlh := fun _ => ∑ n, (outs n).value
        kl := klOfGroups (fun i => if i = ids.means then g.meansKl e.mean else kl i) ids.groups
        accumulate := fun _ => mergeAcc (catAccP ids.cat resps)
          (mergeAcc (normalAccP ids.meanPrior dstats) (normalAccP ids.prior lstats))
        params := ids.groups.flatten.toFinset }
    match evidenceLowerBound (some m) (some (List.finRange N)) datasize with
    | .error err => .error err
    | .ok v => .ok (v, SetModel.weighted resps (g.pdfvecs posts e.unit e.mean e.weights e.bias e.disc))

/-- The groups of the conjugate optimizer, `shmm/train.py` 86-90: the class means and the transforms are not conjugate
parameters (`basemodel.py` 47 compares types). -/
def SetIds.cjgGroups (i : SetIds) : List (List ℕ) :=
  ModelSet.bayesGroups (fun k => k == i.cat || k == i.prior || k == i.meanPrior) i.groups

end Verif.GSM
