import Verif.Model.WishartExp
import Verif.Model.Mixture
import Verif.Model.HMM

/-!
# Variational Bayes training: objective and parameter updates of whole models

`models/parameters.py`, `models/normalset.py`, `models/categoricalset.py`, `models/mixtureset.py`,
`models/modelset.py`, `models/mixture.py`, `models/hmm.py`, `inference/objectives.py`.

A conjugate pair (the class of the prior and its likelihood function) is a `Family`; a set of models
is a `SetModel`: what the containers (`Mixture`, `MixtureSet`, `HMM`) ask of their `modelset`.
The optimizer updates all parameters of the models considered here in one step: they return a single
mean-field group (`normalset.py` 114-115, `mixture.py` 57-65, `mixtureset.py` 72-80, `hmm.py` 67-68).
Exact real arithmetic.
-/

namespace Verif.VB

open Real Verif.Dists Verif.Mixture

/-- The results of `M` calls, in order; the first exception is raised. -/
def seqFin {α : Type} : {M : ℕ} → (Fin M → Except Err α) → Except Err (Fin M → α)
  | 0, _ => .ok Fin.elim0
  | _ + 1, f =>
    match f 0 with
    | .error e => .error e
    | .ok a =>
      match seqFin (fun i => f i.succ) with
      | .error e => .error e
      | .ok r => .ok (Fin.cons a r)

/-! ## Conjugate parameters -/

/-- A class of conjugate priors `P` and its likelihood function on data `X`. -/
structure Family (X P : Type) where
  /-- `pdf.dim` -/
  dim : P → List ℕ
  /-- `pdf.natural_parameters()` -/
  natural : P → Except Err (List ℝ)
  /-- `pdf.update_from_natural_parameters` -/
  fromNatural : List ℝ → Except Err P
  /-- `pdf.expected_sufficient_statistics()` -/
  expStats : P → Except Err (List ℝ)
  /-- `pdf.log_norm()` -/
  logNorm : P → Except Err ℝ
  /-- number of columns of `likelihood_fn.sufficient_statistics(data)` -/
  sdim : ℕ
  /-- a row of `likelihood_fn.sufficient_statistics(data)` -/
  stats : X → List ℝ
  /-- `likelihood_fn(nparams, stats)` -/
  call : List ℝ → List ℝ → Except Err ℝ

/-- `NormalGamma` / `NormalDiagonalLikelihood`. -/
noncomputable def ngFam (D : ℕ) : Family (List ℝ) (NG ℝ) where
  dim p := [p.mean.length, p.rates.length]
  natural p := .ok (ngNatural p)
  fromNatural := ngFromNatural
  expStats p := .ok (ngExpStats p)
  logNorm p := .ok (ngLogNorm p)
  sdim := 2 * D + 2
  stats := ngStats
  call := normalCall D

/-- `IsotropicNormalGamma` / `IsotropicNormalLikelihood`. -/
noncomputable def ingFam (D : ℕ) : Family (List ℝ) (ING ℝ) where
  dim p := [p.mean.length, 1]
  natural p := .ok (ingNatural p)
  fromNatural := ingFromNatural
  expStats p := .ok (ingExpStats p)
  logNorm p := .ok (ingLogNorm p)
  sdim := D + 3
  stats := ingStats
  call := normalCall D

/-- `NormalWishart` / `NormalLikelihood` (`normalwishart.py` 88-92 for `__call__`, the same as the
diagonal one). -/
noncomputable def nwFam (D : ℕ) : Family (Fin D → ℝ) (Σ D : ℕ, NW D) where
  dim p := [p.1, p.1, p.1]
  natural p := nwNatural p.2
  fromNatural := nwFromNatural
  expStats p := nwExpStats p.2
  logNorm p := nwLogNorm p.2
  sdim := D + D * D + 2
  stats := nwStats
  call := normalCall D

/-- `Dirichlet` / `CategoricalLikelihood`. -/
noncomputable def dirFam (D : ℕ) : Family (List ℝ) (List ℝ) where
  dim c := [c.length]
  natural c := .ok (dirNatural c)
  fromNatural := dirFromNatural
  expStats c := .ok (dirExpStats c)
  logNorm c := .ok (dirLogNorm c)
  sdim := D
  stats := catStats
  call := catCall

/-- `ConjugateBayesianParameter`, `parameters.py` 83-99. -/
@[ext] structure CParam (P : Type) where
  prior : P
  post : P

variable {X P : Type}

/-- `kl_div`, `basedist.py` 243-263 (two objects of the same class; elementwise operations raise when
the lengths differ). -/
noncomputable def Family.kl (fam : Family X P) (p q : P) : Except Err ℝ :=
  if fam.dim p ≠ fam.dim q then .error .dimMismatch
  else do
    let n1 ← fam.natural p
    let n2 ← fam.natural q
    let t ← fam.expStats p
    let a1 ← fam.logNorm p
    let a2 ← fam.logNorm q
    if n1.length ≠ n2.length ∨ t.length ≠ n1.length then .error .runtimeError
    else .ok (a2 - a1 - vdot t (vsub n2 n1))

/-- `kl_div_posterior_prior`, `parameters.py` 79-80. -/
noncomputable def Family.paramKl (fam : Family X P) (c : CParam P) : Except Err ℝ :=
  fam.kl c.post c.prior

/-- `natural_grad_update`, `parameters.py` 134-141. -/
noncomputable def Family.update (fam : Family X P) (c : CParam P) (stats : List ℝ) (lrate : ℝ) :
    Except Err (CParam P) := do
  let n0 ← fam.natural c.prior
  let n1 ← fam.natural c.post
  if n0.length ≠ stats.length ∨ n0.length ≠ n1.length then .error .runtimeError
  else do
    let p ← fam.fromNatural (vadd n1 (vsmul lrate (vsub (vadd n0 stats) n1)))
    .ok ⟨c.prior, p⟩

/-- `expected_log_likelihood` of one model on one data point, `models/normal.py` 139-141:
`likelihood_fn(natural_form(), stats)`. -/
noncomputable def Family.llh (fam : Family X P) (c : CParam P) (x : X) : Except Err ℝ := do
  let t ← fam.expStats c.post
  fam.call t (fam.stats x)

/-! ## Sets of models -/

/-- What a container asks of a set of `M` models. -/
structure SetModel (X : Type) (M : ℕ) where
  /-- the parameters -/
  State : Type
  /-- `expected_log_likelihood`, one frame -/
  llh : State → X → Except Err (Fin M → ℝ)
  /-- `kl_div_posterior_prior` summed over the parameters, `basemodel.py` 64-77 -/
  kl : State → Except Err ℝ
  /-- `accumulate(stats, resps)` on the rows, `store_stats(scale * acc_stats)`
  (`objectives.py` 98-107) and `natural_grad_update(lrate)` of every parameter -/
  step : State → List (X × (Fin M → ℝ)) → (scale lrate : ℝ) → Except Err State

/-- `NormalSet`, `normalset.py` 111-123 (and `CategoricalSet`, `categoricalset.py` 40-55): one
conjugate parameter per model, `accumulate` is `resps.t() @ stats`. -/
noncomputable def familySet (fam : Family X P) (M : ℕ) : SetModel X M where
  State := Fin M → CParam P
  llh st x := seqFin fun m => fam.llh (st m) x
  kl st := do
    let v ← seqFin fun m => fam.paramKl (st m)
    .ok (∑ m, v m)
  step st rows scale lrate := seqFin fun m =>
    fam.update (st m) (vsmul scale (wsum fam.sdim (rows.map fun r => (r.2 m, fam.stats r.1)))) lrate

/-- `_log_weights` of one mixture, `mixtureset.py` 63-67 and `mixture.py` 45-48: the expected
log-likelihood of every row of the identity of size `C`. -/
noncomputable def logWeights (C : ℕ) (c : List ℝ) : Except Err (Fin C → ℝ) :=
  if c.length ≠ C then .error .runtimeError
  else .ok fun k => catExpLlh c (List.ofFn fun j : Fin C => if j = k then 1 else 0)

/-- The local quantities of a set of mixtures for one frame, `mixtureset.py` 85-98. -/
noncomputable def mixSetOut {M C : ℕ} (inner : SetModel X (M * C)) (w : Fin M → CParam (List ℝ))
    (st : inner.State) (x : X) : Except Err (Fin M → LocalOut C) := do
  let lw ← seqFin fun m => logWeights C (w m).post
  let llh ← inner.llh st x
  .ok (mixSetLocal lw llh)

/-- `MixtureSet`, `mixtureset.py` 58-112. -/
noncomputable def mixtureSet (M C : ℕ) (inner : SetModel X (M * C)) : SetModel X M where
  State := (Fin M → CParam (List ℝ)) × inner.State
  llh st x := do
    let o ← mixSetOut inner st.1 st.2 x
    .ok fun m => (o m).value
  kl st := do
    let v ← seqFin fun m => (dirFam C).paramKl (st.1 m)
    let k ← inner.kl st.2
    .ok (∑ m, v m + k)
  step st rows scale lrate := do
    let outs ← rows.mapM fun r => do
      let o ← mixSetOut inner st.1 st.2 r.1
      .ok (r.1, r.2, fun m => (o m).resps)
    let w ← seqFin fun m => (dirFam C).update (st.1 m)
      (vsmul scale (wsum C (outs.map fun o => (1, mixSetCatStats o.2.2 o.2.1 m)))) lrate
    let s ← inner.step st.2 (outs.map fun o => (o.1, totalResps o.2.2 o.2.1)) scale lrate
    .ok (w, s)

/-- `DynamicallyOrderedModelSet`, `modelset.py` 140-154 (with the order given), and
`RepeatedModelSet`, 194-201 (`order i = i % M`): the model of state `s` is `order s`. -/
noncomputable def orderedSet {M S : ℕ} (order : Fin S → Fin M) (inner : SetModel X M) :
    SetModel X S where
  State := inner.State
  llh st x := do
    let v ← inner.llh st x
    .ok fun s => v (order s)
  kl := inner.kl
  step st rows scale lrate :=
    inner.step st (rows.map fun r => (r.1, fun m => ∑ s, if order s = m then r.2 s else 0)) scale lrate

/-- `JointModelSet` of two sets, `modelset.py` 43-109: concatenation. -/
noncomputable def jointSet {M N : ℕ} (a : SetModel X M) (b : SetModel X N) : SetModel X (M + N) where
  State := a.State × b.State
  llh st x := do
    let v ← a.llh st.1 x
    let w ← b.llh st.2 x
    .ok (Fin.append v w)
  kl st := do
    let v ← a.kl st.1
    let w ← b.kl st.2
    .ok (v + w)
  step st rows scale lrate := do
    let s ← a.step st.1 (rows.map fun r => (r.1, fun m => r.2 (Fin.castAdd N m))) scale lrate
    let t ← b.step st.2 (rows.map fun r => (r.1, fun m => r.2 (Fin.natAdd M m))) scale lrate
    .ok (s, t)

/-! ## `Mixture` -/

/-- The parameters of a mixture. -/
structure MixState {K : ℕ} (inner : SetModel X K) where
  weights : CParam (List ℝ)
  comps : inner.State

/-- `expected_log_likelihood`, `mixture.py` 70-93, one frame. -/
noncomputable def mixOut {K : ℕ} (inner : SetModel X K) (st : MixState inner) (x : X) :
    Except Err (LocalOut K) := do
  let lw ← logWeights K st.weights.post
  let llh ← inner.llh st.comps x
  .ok (mixLocal lw llh)

/-- `kl_div_posterior_prior` of a mixture. -/
noncomputable def mixKl {K : ℕ} (inner : SetModel X K) (st : MixState inner) : Except Err ℝ := do
  let k ← inner.kl st.comps
  let w ← (dirFam K).paramKl st.weights
  .ok (k + w)

/-- `scale = datasize / float(mb_datasize)`, `objectives.py` 177-180. -/
noncomputable def batchScale (mb : ℕ) (datasize : ℤ) : Except Err ℝ :=
  if mb = 0 then .error .zeroDivision
  else .ok (((if datasize ≤ 0 then (mb : ℤ) else datasize : ℤ) : ℝ) / (mb : ℝ))

/-- `evidence_lower_bound(mixture, data, datasize).value`, `objectives.py` 177-185. -/
noncomputable def mixElbo {K : ℕ} (inner : SetModel X K) (st : MixState inner) (data : List X)
    (datasize : ℤ) : Except Err ℝ := do
  let scale ← batchScale data.length datasize
  let outs ← data.mapM (mixOut inner st)
  let kl ← mixKl inner st
  .ok (scale * (outs.map fun o => o.value).sum - kl)

/-- `elbo = evidence_lower_bound(...); elbo.backward(); optim.step()`: the responsibilities of the
frames, `accumulate` (`mixture.py` 95-102) and the updates. -/
noncomputable def mixStep {K : ℕ} (inner : SetModel X K) (st : MixState inner) (data : List X)
    (datasize : ℤ) (lrate : ℝ) : Except Err (MixState inner) := do
  let scale ← batchScale data.length datasize
  let outs ← data.mapM (mixOut inner st)
  let w ← (dirFam K).update st.weights (vsmul scale (mixCatStats (outs.map fun o => o.resps))) lrate
  let s ← inner.step st.comps (List.zipWith (fun x o => (x, LocalOut.resps o)) data outs) scale lrate
  .ok ⟨w, s⟩

/-- A training: one step per learning rate, on the same data. -/
noncomputable def mixTrain {K : ℕ} (inner : SetModel X K) (data : List X) (datasize : ℤ) :
    MixState inner → List ℝ → Except Err (MixState inner)
  | st, [] => .ok st
  | st, l :: ls =>
    match mixStep inner st data datasize l with
    | .error e => .error e
    | .ok st' => mixTrain inner data datasize st' ls

/-! ## `HMM` -/

/-- An utterance: at least one frame. -/
abbrev Utt (X : Type) := Σ n : ℕ, Fin (n + 1) → X

/-- `pc_llhs`, `hmm.py` 79: the scaled log-likelihoods of the states. -/
noncomputable def hmmLlhs {S : ℕ} (inner : SetModel X S) (st : inner.State) (ascale : ℝ) (u : Utt X) :
    Except Err (Fin (u.1 + 1) → Fin S → ℝ) :=
  seqFin fun t => do
    let v ← inner.llh st (u.2 t)
    .ok fun s => ascale * v s

/-- Real scores as log-domain numbers. -/
noncomputable def asLog {n S : ℕ} (v : Fin n → Fin S → ℝ) : Fin n → Frame S := fun t s => ((v t s : ℝ) : LogR)

/-- The responsibilities of the frames of an utterance, `hmm.py` 80-86.  A NaN (utterance of
probability zero) is reported as an error, its propagation is not modelled. -/
noncomputable def hmmResps {S : ℕ} (g : CGraph S) (v : Fin (n + 1) → Fin S → ℝ) :
    Except Err (Fin (n + 1) → Fin S → ℝ) :=
  seqFin fun t => seqFin fun s =>
    match statePosts g (asLog v) t s with
    | none => .error .valueError
    | some r => .ok r

/-- `exp_llh.sum()` of an utterance, `hmm.py` 87-92: the sum of the frame scores weighted by the
responsibilities. -/
noncomputable def hmmExpLlh {S : ℕ} (g : CGraph S) (inner : SetModel X S) (st : inner.State)
    (ascale : ℝ) (u : Utt X) : Except Err ℝ := do
  let v ← hmmLlhs inner st ascale u
  let r ← hmmResps g v
  .ok (∑ t, ∑ s, v t s * r t s)

/-- The value of `evidence_lower_bound(hmm, utterance, datasize)`, `objectives.py` 177-185. -/
noncomputable def hmmElbo {S : ℕ} (g : CGraph S) (inner : SetModel X S) (st : inner.State)
    (ascale : ℝ) (u : Utt X) (datasize : ℤ) : Except Err ℝ := do
  let scale ← batchScale (u.1 + 1) datasize
  let e ← hmmExpLlh g inner st ascale u
  let kl ← inner.kl st
  .ok (scale * e - kl)

/-- The rows given to `modelset.accumulate` for an utterance, `hmm.py` 94-96. -/
noncomputable def hmmRows {S : ℕ} (g : CGraph S) (inner : SetModel X S) (st : inner.State)
    (ascale : ℝ) (u : Utt X) : Except Err (List (X × (Fin S → ℝ))) := do
  let v ← hmmLlhs inner st ascale u
  let r ← hmmResps g v
  .ok (List.ofFn fun t => (u.2 t, fun s => ascale * r t s))

/-- Accumulation over utterances (the accumulators are added, `objectives.py` 10-34, and scaled by
`scale`) and update of all parameters: `beer hmm accumulate` and `beer hmm update`. -/
noncomputable def hmmStep {S : ℕ} (g : CGraph S) (inner : SetModel X S) (st : inner.State)
    (ascale : ℝ) (utts : List (Utt X)) (scale lrate : ℝ) : Except Err inner.State := do
  let rows ← utts.mapM (hmmRows g inner st ascale)
  inner.step st rows.flatten scale lrate

/-- A training of an HMM: one step per learning rate, on the same utterances. -/
noncomputable def hmmTrain {S : ℕ} (g : CGraph S) (inner : SetModel X S) (ascale : ℝ)
    (utts : List (Utt X)) (scale : ℝ) : inner.State → List ℝ → Except Err inner.State
  | st, [] => .ok st
  | st, l :: ls =>
    match hmmStep g inner st ascale utts scale l with
    | .error e => .error e
    | .ok st' => hmmTrain g inner ascale utts scale st' ls

end Verif.VB
