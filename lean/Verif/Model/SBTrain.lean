import Verif.Model.VBTrain
import Verif.Model.StickBreaking

/-!
# Variational training of stick-breaking weights, alone and as the weights of a mixture

`beer/models/categorical.py` 22-27 and 82-163 (`SBCategorical`), `beer/models/mixture.py` 40-102 with such weights,
`beer/models/parameters.py` 134-141, `beer/inference/objectives.py` 177-185.  `sort` is `stats.sort(descending=True)[1]`
(line 111).  Exact real arithmetic; without the hyper-prior over the concentration (lines 166-209, `Model/StickBreaking`).
-/

namespace Verif.VB

open Verif.Dists Verif.Mixture

variable {X : Type} {K : ℕ}

/-- The state of a `SBCategorical`, `categorical.py` 100-105: the prior and the posterior of the sticks, the ordering. -/
@[ext] structure SBCat (K : ℕ) where
  prior : Fin K → ℝ × ℝ
  post : Fin K → ℝ × ℝ
  ordering : Equiv.Perm (Fin K)

/-- `SBCategorical.create`, `categorical.py` 85-98 with `_default_sb_param`, 22-27. -/
noncomputable def SBCat.create (K : ℕ) (strength : ℝ) : SBCat K :=
  ⟨fun _ => (1, strength), fun _ => (1, strength), Equiv.refl _⟩

/-- `kl_div_posterior_prior` of the sticks (`parameters.py` 79-80), summed over the sticks (`basemodel.py` 64-77). -/
noncomputable def SBCat.kl (s : SBCat K) : Except Err ℝ := do
  let v ← seqFin fun k => (dirFam 2).kl [(s.post k).1, (s.post k).2] [(s.prior k).1, (s.prior k).2]
  .ok (∑ k, v k)

/-- `natural_grad_update` of the sticks (`parameters.py` 134-141) with the callback before the update,
`categorical.py` 109-118. -/
noncomputable def SBCat.update [NeZero K] (sort : (Fin K → ℝ) → Equiv.Perm (Fin K)) (s : SBCat K) (stats : Fin K → ℝ)
    (lrate : ℝ) : SBCat K :=
  ⟨s.prior, fun k => betaUpdate (s.prior k) (s.post k) (sbTransform (sort stats) stats k) lrate, sort stats⟩

/-- `evidence_lower_bound(model, data, datasize).value` of a `SBCategorical`, `objectives.py` 177-185; the data are the rows
of a matrix of one-hot vectors, `categorical.py` 151-160. -/
noncomputable def SBCat.elbo [NeZero K] (s : SBCat K) (data : List (Fin K → ℝ)) (datasize : ℤ) : Except Err ℝ := do
  let scale ← batchScale data.length datasize
  let kl ← s.kl
  .ok (scale * (data.map (sbExpLlh s.ordering s.post)).sum - kl)

/-- `elbo.backward(); optim.step()`: `accumulate` (`categorical.py` 162-163) and the update. -/
noncomputable def SBCat.step [NeZero K] (sort : (Fin K → ℝ) → Equiv.Perm (Fin K)) (s : SBCat K)
    (data : List (Fin K → ℝ)) (datasize : ℤ) (lrate : ℝ) : Except Err (SBCat K) := do
  let scale ← batchScale data.length datasize
  .ok (s.update sort (fun k => scale * (data.map fun x => x k).sum) lrate)

/-- `_log_weights`, `mixture.py` 45-48: the expected log-likelihoods of the rows of the identity. -/
noncomputable def SBCat.logWeights [NeZero K] (s : SBCat K) : Fin K → ℝ :=
  fun k => sbExpLlh s.ordering s.post (Pi.single k 1)

/-- A mixture with stick-breaking weights. -/
structure SBMixState (inner : SetModel X K) where
  weights : SBCat K
  comps : inner.State

/-- `expected_log_likelihood`, `mixture.py` 70-93, one frame. -/
noncomputable def sbMixOut [NeZero K] (inner : SetModel X K) (st : SBMixState inner) (x : X) : Except Err (LocalOut K) := do
  let llh ← inner.llh st.comps x
  .ok (mixLocal st.weights.logWeights llh)

/-- `evidence_lower_bound(mixture, data, datasize).value`, `objectives.py` 177-185. -/
noncomputable def sbMixElbo [NeZero K] (inner : SetModel X K) (st : SBMixState inner) (data : List X) (datasize : ℤ) :
    Except Err ℝ := do
  let scale ← batchScale data.length datasize
  let outs ← data.mapM (sbMixOut inner st)
  let k ← inner.kl st.comps
  let w ← st.weights.kl
  .ok (scale * (outs.map fun o => o.value).sum - (k + w))

/-- `elbo = evidence_lower_bound(...); elbo.backward(); optim.step()`: the responsibilities of the frames, `accumulate`
(`mixture.py` 95-102) and the updates. -/
noncomputable def sbMixStep [NeZero K] (sort : (Fin K → ℝ) → Equiv.Perm (Fin K)) (inner : SetModel X K)
    (st : SBMixState inner) (data : List X) (datasize : ℤ) (lrate : ℝ) : Except Err (SBMixState inner) := do
  let scale ← batchScale data.length datasize
  let outs ← data.mapM (sbMixOut inner st)
  let w := st.weights.update sort (fun k => scale * (outs.map fun o => o.resps k).sum) lrate
  let s ← inner.step st.comps (List.zipWith (fun x o => (x, LocalOut.resps o)) data outs) scale lrate
  .ok ⟨w, s⟩

/-- A training with learning rate one: `steps` steps on the same data. -/
noncomputable def sbMixTrain [NeZero K] (sort : (Fin K → ℝ) → Equiv.Perm (Fin K)) (inner : SetModel X K) (data : List X)
    (datasize : ℤ) : SBMixState inner → ℕ → Except Err (SBMixState inner)
  | st, 0 => .ok st
  | st, n + 1 =>
    match sbMixStep sort inner st data datasize 1 with
    | .error e => .error e
    | .ok st' => sbMixTrain sort inner data datasize st' n

end Verif.VB
