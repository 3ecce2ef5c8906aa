import Verif.Model.VBTrain

/-!
# Training an HMM with state sequences

`beer/models/hmm.py` 40-62 and 73-96 with `state_path` or `viterbi=True`, as passed by `evidence_lower_bound`
(`beer/inference/objectives.py` 177-185); `recipes/timit_v2/utils/hmm-train-with-alignments.py` trains this way.  A given sequence has one
state per frame (others are the subject of C15).
-/

namespace Verif.VB

open Real Verif

variable {X : Type}

/-- An utterance, with the sequence of states given as `state_path` if any; `none` is `viterbi=True`. -/
structure PUtt (X : Type) (S : ℕ) where
  utt : Utt X
  path : Option (Fin (utt.1 + 1) → Fin S)

/-- The state sequence of `hmm.py` 42-58.  `pc_llhs[path]` (line 58) indexes the frames with the states: it raises when a
state is not smaller than the number of frames. -/
noncomputable def usedPath {S n : ℕ} (am : Frame S → Fin S) (g : CGraph S) (given : Option (Fin (n + 1) → Fin S))
    (v : Fin (n + 1) → Fin S → ℝ) : Except Err (Fin (n + 1) → Fin S) :=
  let path := match given with
    | none => bestPath am g (asLog v)
    | some p => p
  if ∀ t, (path t).val < n + 1 then .ok path else .error .indexError

/-- `onehot(path, n_states)`, `hmm.py` 47. -/
def pathResps {S n : ℕ} (path : Fin (n + 1) → Fin S) : Fin (n + 1) → Fin S → ℝ := fun t s => if s = path t then 1 else 0

/-- The value of `evidence_lower_bound` for an utterance, `hmm.py` 79-92, `objectives.py` 177-185. -/
noncomputable def pathElbo {S : ℕ} (am : Frame S → Fin S) (g : CGraph S) (inner : SetModel X S) (st : inner.State) (ascale : ℝ)
    (u : PUtt X S) (datasize : ℤ) : Except Err ℝ := do
  let scale ← batchScale (u.utt.1 + 1) datasize
  let v ← hmmLlhs inner st ascale u.utt
  let p ← usedPath am g u.path v
  let kl ← inner.kl st
  .ok (scale * (∑ t, ∑ s, v t s * pathResps p t s) - kl)

/-- The rows given to `modelset.accumulate`, `hmm.py` 94-96. -/
noncomputable def givenRows {S : ℕ} (am : Frame S → Fin S) (g : CGraph S) (inner : SetModel X S) (st : inner.State) (ascale : ℝ)
    (u : PUtt X S) : Except Err (List (X × (Fin S → ℝ))) := do
  let v ← hmmLlhs inner st ascale u.utt
  let p ← usedPath am g u.path v
  .ok (List.ofFn fun t => (u.utt.2 t, fun s => ascale * pathResps p t s))

/-- Accumulation over the utterances and update, as `hmmStep`. -/
noncomputable def pathStep {S : ℕ} (am : Frame S → Fin S) (g : CGraph S) (inner : SetModel X S) (st : inner.State) (ascale : ℝ)
    (utts : List (PUtt X S)) (scale lrate : ℝ) : Except Err inner.State := do
  let rows ← utts.mapM (givenRows am g inner st ascale)
  inner.step st rows.flatten scale lrate

/-- A training: one step per learning rate, on the same utterances. -/
noncomputable def pathTrain {S : ℕ} (am : Frame S → Fin S) (g : CGraph S) (inner : SetModel X S) (ascale : ℝ) (utts : List (PUtt X S))
    (scale : ℝ) : inner.State → List ℝ → Except Err inner.State
  | st, [] => .ok st
  | st, l :: ls =>
    match pathStep am g inner st ascale utts scale l with
    | .error e => .error e
    | .ok st' => pathTrain am g inner ascale utts scale st' ls

end Verif.VB
