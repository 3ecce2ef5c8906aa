import Verif.Model.LoopVB
import Verif.Model.SBHyper
import Verif.Model.MkLoop

/-!
# Variational training of phone loops, with the models of the weights of the units other than a Dirichlet

* `beer/models/phoneloop.py` 44-101 (`PhoneLoop`) with `SBCategorical` or `SBCategoricalHyperPrior`, the weights of the phone
  loops which `hmm mkphoneloop` makes by default;
* `beer/models/phoneloop.py` 136-191 (`BigramPhoneLoop`) with `CategoricalSet` or `SBCategoricalSet`.

As in `Model/LoopVB` one step updates the weights and the emissions; exact real arithmetic, a NaN is an error.
`categorical.sufficient_statistics` and the sum over the utterances are exchanged (the former is linear).
-/

namespace Verif.VB

open Verif.Dists Verif.PhoneLoop Verif.MkLoop

variable {X ι : Type} {M S P : ℕ}

/-- What a phone loop uses of the model of its weights: the expected log-weights and the update of its posterior from the
counts.  The indices are the units (unigram), or the units after each unit (bigram). -/
structure WeightModel (ι : Type) where
  State : Type
  logW : State → ι → ℝ
  update : State → (ι → ℝ) → ℝ → Except Err State

/-- `SBCategorical`, `categorical.py` 82-163. -/
noncomputable def sbWeights [NeZero P] (sort : (Fin P → ℝ) → Equiv.Perm (Fin P)) : WeightModel (Fin P) :=
  ⟨SBCat P, SBCat.logWeights, fun s n lrate => .ok (s.update sort n lrate)⟩

/-- `SBCategoricalHyperPrior`, `categorical.py` 166-209. -/
noncomputable def hypWeights [NeZero P] (sort : (Fin P → ℝ) → Equiv.Perm (Fin P)) : WeightModel (Fin P) :=
  ⟨SBState P, fun s => (sticksOf s).logWeights, fun s n lrate => sbStep s (sort n) n lrate⟩

/-- `CategoricalSet`, `categoricalset.py` 15-66. -/
noncomputable def dirSetWeights (P : ℕ) : WeightModel (Fin P × Fin P) :=
  ⟨Fin P → CParam (List ℝ), fun w i => setLogLikelihood (fun k => (w k).post) i.1 i.2,
    fun w n lrate => seqFin fun k => (dirFam P).update (w k) (catStats (List.ofFn fun j => n (k, j))) lrate⟩

/-- `SBCategoricalSet`, `categoricalset.py` 185-307; the ordering is the one of the root. -/
noncomputable def sbSetWeights [NeZero P] (ordering : Equiv.Perm (Fin P)) : WeightModel (Fin P × Fin P) :=
  ⟨CParam (Fin (P * P) → ℝ × ℝ), fun w i => sbSetLogLikelihood ordering (GSM.split w.post) i.1 i.2,
    fun w n lrate => .ok (sbSetUpdate ordering w (fun i j => n (i, j)) lrate)⟩

/-- The methods of a class of phone loops: `_on_weights_update`, and the statistics of the weights which `accumulate` adds,
without alignment (from the posteriors of the first frame and of the transitions) and with one. -/
structure LoopClass (ι : Type) (S : ℕ) where
  install : (ι → ℝ) → TMat S → TMat S
  counts : (n : ℕ) → (Fin S → ℝ) → (Fin n → Fin S → Fin S → ℝ) → ι → ℝ
  aligned : Except Err (ι → ℝ)

/-- `PhoneLoop`, `phoneloop.py` 53-65 and 83-101. -/
noncomputable def unigramClass (starts ends : Fin P → Fin S) : LoopClass (Fin P) S :=
  ⟨refresh starts (List.ofFn ends), fun _ r x => phoneCounts starts (List.ofFn ends) r x, .ok fun _ => 0⟩

/-- `BigramPhoneLoop`, `phoneloop.py` 145-157 and 175-191. -/
noncomputable def bigramClass (kind : CatSetKind) (starts ends : Fin P → Fin S) : LoopClass (Fin P × Fin P) S :=
  ⟨fun w => bigramRefresh starts ends fun i j => w (i, j), fun _ _ x i => bigramCounts starts ends x i.1 i.2,
    match accumulateOneArg kind with
    | .error e => .error e
    | .ok _ => .ok fun _ => 0⟩

/-- What the training leaves alone: initial and final log-probabilities of the decoding graph, pdfs of its states. -/
structure WConf (M S : ℕ) where
  init : Frame S
  final : Frame S
  order : Fin S → Fin M

/-- What it changes. -/
structure WState (inner : SetModel X M) (W : WeightModel ι) (S : ℕ) where
  trans : TMat S
  weights : W.State
  comps : inner.State

/-- The decoding graph. -/
noncomputable def WState.graph {inner : SetModel X M} {W : WeightModel ι} (conf : WConf M S) (st : WState inner W S) : CGraph S :=
  ⟨conf.init, conf.final, st.trans⟩

/-- `__init__` of the two classes, `phoneloop.py` 44-51 and 136-143. -/
noncomputable def WState.make {inner : SetModel X M} {W : WeightModel ι} (L : LoopClass ι S) (T : TMat S) (weights : W.State)
    (comps : inner.State) : WState inner W S :=
  ⟨L.install (W.logW weights) T, weights, comps⟩

/-- `expected_log_likelihood` (`hmm.py` 73-92) and `accumulate` (`phoneloop.py` 83-101, 175-191) of one utterance: rows for the
emissions, counts for the weights. -/
noncomputable def wAcc {inner : SetModel X M} {W : WeightModel ι} (conf : WConf M S) (L : LoopClass ι S) (st : WState inner W S)
    (a : ℝ) (u : LUtt X M) : Except Err (List (X × (Fin M → ℝ)) × (ι → ℝ)) :=
  match u.ali with
  | none => do
    let rows ← hmmRows (st.graph conf) (orderedSet conf.order inner) st.comps a u.frames
    let v ← hmmLlhs (orderedSet conf.order inner) st.comps a u.frames
    let r ← hmmResps (st.graph conf) v
    .ok (pdfRows conf.order rows, L.counts u.frames.1 (r 0) (transPosts (st.graph conf) (asLog v)))
  | some ⟨_, g, order⟩ => do
    let rows ← hmmRows g (orderedSet order inner) st.comps a u.frames
    let c ← L.aligned
    .ok (pdfRows order rows, c)

/-- Accumulation over utterances, update of the emissions and of the weights; the latter changes the transitions. -/
noncomputable def wStep {inner : SetModel X M} {W : WeightModel ι} (conf : WConf M S) (L : LoopClass ι S) (st : WState inner W S)
    (a : ℝ) (utts : List (LUtt X M)) (scale lrate : ℝ) : Except Err (WState inner W S) := do
  let accs ← utts.mapM (wAcc conf L st a)
  let s ← inner.step st.comps (accs.map Prod.fst).flatten scale lrate
  let w ← W.update st.weights (fun i => scale * (accs.map fun c => c.2 i).sum) lrate
  .ok (WState.make L st.trans w s)

/-- A training: one step per learning rate, on the same utterances. -/
noncomputable def wTrain {inner : SetModel X M} {W : WeightModel ι} (conf : WConf M S) (L : LoopClass ι S) (a : ℝ)
    (utts : List (LUtt X M)) (scale : ℝ) : WState inner W S → List ℝ → Except Err (WState inner W S)
  | st, [] => .ok st
  | st, l :: ls =>
    match wStep conf L st a utts scale l with
    | .error e => .error e
    | .ok st' => wTrain conf L a utts scale st' ls

end Verif.VB
