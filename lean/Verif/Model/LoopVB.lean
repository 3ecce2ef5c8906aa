import Verif.Model.VBTrain
import Verif.Model.PhoneLoop

/-!
# Variational training of a phone loop: emissions, weights and transitions

`beer/models/phoneloop.py` 44-101 (`PhoneLoop`) on top of `beer/models/hmm.py` 73-100, with the updates of
`beer/models/parameters.py` 134-141.  The weights and the emissions are updated in the same step (`phoneloop.py` 70-78: one
mean-field group when the emissions have one).  An utterance comes with a graph of its alignment (the argument
`inference_graph`) or without one.  Exact real arithmetic; as in `Model/VBTrain` a NaN is an error.
-/

namespace Verif.VB

open Real Verif.Dists Verif.PhoneLoop

variable {X : Type}

/-- What the training of a phone loop leaves alone: the initial and final log-probabilities of the decoding graph, the pdf
of each of its `S` states, the values of `start_pdf` and `end_pdf` (`phoneloop.py` 44-48). -/
structure LoopConf (M S P : ℕ) where
  init : Frame S
  final : Frame S
  order : Fin S → Fin M
  starts : Fin P → Fin S
  ends : List (Fin S)

/-- What it changes: the transitions of the decoding graph, the weights of the units and the emissions. -/
structure LoopState {M : ℕ} (inner : SetModel X M) (S : ℕ) where
  trans : TMat S
  weights : CParam (List ℝ)
  comps : inner.State

/-- `PhoneLoop.__init__`, `phoneloop.py` 44-51, and the callback after an update of the weights, 53-65. -/
noncomputable def LoopState.make {M S P : ℕ} {inner : SetModel X M} (conf : LoopConf M S P) (T : TMat S)
    (weights : CParam (List ℝ)) (comps : inner.State) : Except Err (LoopState inner S) := do
  let w ← logWeights P weights.post
  .ok ⟨refresh conf.starts conf.ends w T, weights, comps⟩

/-- The decoding graph. -/
noncomputable def LoopState.graph {M S P : ℕ} {inner : SetModel X M} (conf : LoopConf M S P) (st : LoopState inner S) :
    CGraph S := ⟨conf.init, conf.final, st.trans⟩

/-- An utterance, with the graph of its alignment and the pdfs of the states of this graph if there is one. -/
structure LUtt (X : Type) (M : ℕ) where
  frames : Utt X
  ali : Option (Σ S : ℕ, CGraph S × (Fin S → Fin M))

/-- `DynamicallyOrderedModelSet.accumulate`, `modelset.py` 148-154: responsibilities of the pdfs. -/
noncomputable def pdfRows {M S : ℕ} (order : Fin S → Fin M) (rows : List (X × (Fin S → ℝ))) : List (X × (Fin M → ℝ)) :=
  rows.map fun r => (r.1, fun m => ∑ s, if order s = m then r.2 s else 0)

/-- The statistics of the weights from an utterance without alignment, `phoneloop.py` 88-97. -/
noncomputable def loopCounts {M S P : ℕ} (conf : LoopConf M S P) (inner : SetModel X M) (st : LoopState inner S) (a : ℝ)
    (u : Utt X) : Except Err (List ℝ) := do
  let v ← hmmLlhs (orderedSet conf.order inner) st.comps a u
  let r ← hmmResps (st.graph conf) v
  .ok (accumulateCounts conf.starts conf.ends ⟨r 0, some ⟨u.1, transPosts (st.graph conf) (asLog v)⟩⟩)

/-- `PhoneLoop.accumulate`, `phoneloop.py` 83-101, after `expected_log_likelihood`, `hmm.py` 73-92: rows for the
emissions, statistics of the weights. -/
noncomputable def loopAcc {M S P : ℕ} (conf : LoopConf M S P) (inner : SetModel X M) (st : LoopState inner S) (a : ℝ)
    (u : LUtt X M) : Except Err (List (X × (Fin M → ℝ)) × List ℝ) :=
  match u.ali with
  | none => do
    let rows ← hmmRows (st.graph conf) (orderedSet conf.order inner) st.comps a u.frames
    let c ← loopCounts conf inner st a u.frames
    .ok (pdfRows conf.order rows, c)
  | some ⟨_, g, order⟩ => do
    let rows ← hmmRows g (orderedSet order inner) st.comps a u.frames
    .ok (pdfRows order rows, accumulateCounts conf.starts conf.ends ⟨fun _ => 0, none⟩)

/-- Accumulation over utterances (`objectives.py` 10-34, scaled by `scale`) and update of all the parameters; the update of
the weights refreshes the transitions. -/
noncomputable def loopStep {M S P : ℕ} (conf : LoopConf M S P) (inner : SetModel X M) (st : LoopState inner S) (a : ℝ)
    (utts : List (LUtt X M)) (scale lrate : ℝ) : Except Err (LoopState inner S) := do
  let accs ← utts.mapM (loopAcc conf inner st a)
  let s ← inner.step st.comps (accs.map Prod.fst).flatten scale lrate
  let w ← (dirFam P).update st.weights (vsmul scale (wsum P (accs.map fun c => (1, c.2)))) lrate
  LoopState.make conf st.trans w s

/-- A training: one step per learning rate, on the same utterances. -/
noncomputable def loopTrain {M S P : ℕ} (conf : LoopConf M S P) (inner : SetModel X M) (a : ℝ) (utts : List (LUtt X M))
    (scale : ℝ) : LoopState inner S → List ℝ → Except Err (LoopState inner S)
  | st, [] => .ok st
  | st, l :: ls =>
    match loopStep conf inner st a utts scale l with
    | .error e => .error e
    | .ok st' => loopTrain conf inner a utts scale st' ls

end Verif.VB
