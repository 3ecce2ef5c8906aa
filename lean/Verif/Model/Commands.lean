import Verif.Model.Inference

/-!
# The `hmm accumulate`, `hmm update` and `hmm train` commands
(`beer/cli/subcommands/hmm/accumulate.py`, `update.py`, `train.py`)

Files are values: the pickled objective of a job, the pickled model (its parameter heap) and the
optimizer state file.  Log messages are not modelled, except for the exceptions they raise.
-/

namespace Verif

variable {F V X ι : Type}

/-- `accumulate.py:39-59` the loop over the utterance ids read from stdin. `bound` tells whether the
local variable `utt` has been assigned: the warning for a missing utterance formats `utt`
(line 45), which raises `UnboundLocalError` (a `NameError`) if no utterance was found before.
`elboOf` is `beer.evidence_lower_bound(model, utt.features, ...)` on the loaded model. -/
def accumulateLoop [Add F] [Add V] (dataset : ι → Option X) (elboOf : X → Except Err (Elbo F V)) :
    List ι → Bool → Elbo F V → ℕ → Except Err (Elbo F V × ℕ)
  | [], _, elbo, count => .ok (elbo, count)
  | u :: us, bound, elbo, count =>
    match dataset u with
    | none => if bound then accumulateLoop dataset elboOf us bound elbo count
              else .error .nameError
    | some x =>
      match elboOf x with
      | .error e => .error e
      | .ok e =>
        match elbo.add (.elbo e) with
        | .error e => .error e
        | .ok elbo' => accumulateLoop dataset elboOf us true elbo' (count + 1)

/-- `accumulate.py:37-63` the content of the output file. (Line 65, after the file is written,
additionally raises `ZeroDivisionError` when no utterance was processed.) -/
def accumulateCmd [Field F] [Add V] (dataset : ι → Option X) (datasize : ℤ)
    (elboOf : X → Except Err (Elbo F V)) (ids : List ι) : Except Err (Elbo F V × ℕ) :=
  match evidenceLowerBound (F := F) (V := V) (X := X) none none datasize with
  | .error e => .error e
  | .ok e0 => accumulateLoop dataset elboOf ids false e0 0

/-- `update.py:26-70` the whole command. `lrateArg` is `--learning-rate`, `stateFile` the content of
the optimizer state file if it exists; returns the new parameters and the new optimizer state.
`groups` is `model.conjugate_bayesian_parameters(keepgroups=True)` and `modelParams`
`model.bayesian_parameters()`. -/
def updateCmd [Field F] [AddCommGroup V] [Module F V] (groups : List (List ℕ))
    (modelParams : Finset ℕ) (lrateArg : F) (stateFile : Option (F × ℕ))
    (jobs : List (Elbo F V)) (h : Heap V) : Except Err (Heap V × (F × ℕ)) :=
  let optim := CjgOptim.new groups lrateArg
  let optim := match stateFile with
    | some s => optim.loadStateDict s
    | none => optim
  let h := optim.initStep h
  match mergeJobs jobs with
  | .error e => .error e
  | .ok elbo =>
    match (elbo.sync modelParams).backward (F := F) true h with
    | .error e => .error e
    | .ok h =>
      let r := optim.step h
      .ok (r.2, r.1.stateDict)

/-- One training iteration of a program using the library, also the one of `hmm/train.py:38-53`:
`optim.init_step()`, compute the objective with the current parameters, `elbo.backward()`,
`optim.step()`. -/
def trainIter [Field F] [AddCommGroup V] [Module F V] (obj : Heap V → Elbo F V)
    (s : CjgOptim F × Heap V) : Except Err (CjgOptim F × Heap V) :=
  let h := s.1.initStep s.2
  match (obj h).backward (F := F) true h with
  | .error e => .error e
  | .ok h => .ok (s.1.step h)

/-- Iterations `i, i+1, ..., i+n-1` of a training, `obj i` being the objective of the `i`-th minibatch
as a function of the current parameters. -/
def trainRun [Field F] [AddCommGroup V] [Module F V] (obj : ℕ → Heap V → Elbo F V) :
    ℕ → ℕ → CjgOptim F × Heap V → Except Err (CjgOptim F × Heap V)
  | _, 0, s => .ok s
  | i, n + 1, s =>
    match trainIter (obj i) s with
    | .error e => .error e
    | .ok s' => trainRun obj (i + 1) n s'

/-- Stop (the parameters and `optim.state_dict()` are saved) and resume in a new process: a new
optimizer built on the same parameters with some learning rate, then `load_state_dict`. -/
def stopResume (lrate : F) (s : CjgOptim F × Heap V) : CjgOptim F × Heap V :=
  ((CjgOptim.new s.1.groups lrate).loadStateDict s.1.stateDict, s.2)

/-- Training interrupted after each of the given numbers of iterations; `(n, r)` is a segment of `n`
iterations after which the process stops, the next process being started with learning rate
argument `r`. -/
def trainSegments [Field F] [AddCommGroup V] [Module F V] (obj : ℕ → Heap V → Elbo F V) :
    ℕ → List (ℕ × F) → CjgOptim F × Heap V → Except Err (CjgOptim F × Heap V)
  | _, [], s => .ok s
  | i, (n, r) :: segs, s =>
    match trainRun obj i n s with
    | .error e => .error e
    | .ok s' => trainSegments obj (i + n) segs (stopResume r s')

/-- `hmm/train.py:38-53` one epoch (assuming line 34 were repaired: it looks up
`beer.BayesianModelOptimizer`, a class of `beer/vbi.py`, a file which the package never imports), as the list of batches on which an update is done: the `i`-th
utterance (from 1) triggers an update if `i % batch_size == 0` (Python modulo, which raises on
zero).  The result is the list of processed batches and the utterances left without an update.  -/
def trainSchedule {U : Type} (batchSize : ℤ) : List U → ℤ → List U → Except Err (List (List U) × List U)
  | [], _, pending => .ok ([], pending)
  | u :: us, i, pending =>
    if batchSize = 0 then .error .zeroDivision
    else if Int.fmod i batchSize = 0 then
      match trainSchedule batchSize us (i + 1) [] with
      | .error e => .error e
      | .ok (bs, left) => .ok ((pending ++ [u]) :: bs, left)
    else trainSchedule batchSize us (i + 1) (pending ++ [u])

end Verif
