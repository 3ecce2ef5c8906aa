import Verif.Model.Py
import Mathlib.Analysis.SpecialFunctions.Log.ENNRealLogExp
import Mathlib.Data.Finset.Lattice.Fold
import Mathlib.Data.List.Range

/-!
# `beer/utils.py`

* `onehot` 84-102, `logsumexp` 105-123, `reserve_gpu` 39-81.
-/

namespace Verif.Utils

open EReal

/-- `beer/utils.py:105-123` along a dimension of size `n + 1`. The values are finite, `-inf` or `inf`
(no NaN). In the branch where `tmax` is infinite torch also computes the other alternative, which is
discarded. -/
noncomputable def logsumexp {n : ℕ} (t : Fin (n + 1) → EReal) : EReal :=
  let tmax := Finset.univ.sup' Finset.univ_nonempty t
  if tmax = ⊥ ∨ tmax = ⊤ then tmax
  else tmax + ENNReal.log (∑ i, EReal.exp (t i - tmax))

/-- `retval[i, label] = 1` in a row of zeros of length `maxLabel`: labels in `[-maxLabel, maxLabel)` are
accepted, negative ones count from the end. -/
def onehotRow (maxLabel : ℕ) (label : ℤ) : Except Err (List ℕ) :=
  if 0 ≤ label ∧ label < maxLabel then .ok ((List.replicate maxLabel 0).set label.toNat 1)
  else if -maxLabel ≤ label ∧ label < 0 then
    .ok ((List.replicate maxLabel 0).set (label + maxLabel).toNat 1)
  else .error .indexError

/-- `beer/utils.py:84-102`. -/
def onehot (labels : List ℤ) (maxLabel : ℕ) : Except Err (List (List ℕ)) :=
  labels.mapM (onehotRow maxLabel)

/-! ## `reserve_gpu` -/

/-- The world seen by `reserve_gpu`: which GPUs are active at the n-th query, and whether the n-th
allocation (made with the given visible device) succeeds. -/
structure GpuEnv where
  active : ℕ → List ℕ
  alloc : ℕ → ℕ → Bool

/-- Observable state: the visible device and the log of the allocations (device, outcome). -/
structure GpuState where
  visible : Option ℕ
  attempts : List (ℕ × Bool)
deriving DecidableEq, Repr

/-- `beer/utils.py:61-73` the loop over the GPUs `(uuid, index)`: the index of the reserved GPU and the
state; `hasLogger = false` is the default `logger=None`. -/
def tryGpus (env : GpuEnv) (hasLogger : Bool) (round : ℕ) :
    List (ℕ × ℕ) → GpuState → Except Err (Option ℕ) × GpuState
  | [], s => (.ok none, s)
  | (uuid, idx) :: gpus, s =>
    if uuid ∈ env.active round then tryGpus env hasLogger round gpus s
    else if hasLogger = false then (.error .attributeError, s)
    else
      let ok := env.alloc s.attempts.length idx
      let s' : GpuState := ⟨some idx, s.attempts ++ [(idx, ok)]⟩
      if ok then (.ok (some idx), s') else tryGpus env hasLogger round gpus s'

/-- `beer/utils.py:59-81` the polling loop: the first argument is the number of remaining rounds, the
second the number of rounds done. The result carries the number of rounds. -/
def pollGpus (env : GpuEnv) (hasLogger : Bool) (gpus : List (ℕ × ℕ)) :
    ℕ → ℕ → GpuState → Except Err ℕ × GpuState × ℕ
  | 0, round, s => (.error .noGPU, s, round)
  | n + 1, round, s =>
    match tryGpus env hasLogger round gpus s with
    | (.error e, s') => (.error e, s', round + 1)
    | (.ok (some idx), s') => (.ok idx, s', round + 1)
    | (.ok none, s') =>
      if hasLogger = false then (.error .attributeError, s', round + 1)
      else pollGpus env hasLogger gpus n (round + 1) s'

/-- `beer/utils.py:39-81`. -/
def reserveGpu (env : GpuEnv) (hasLogger : Bool) (gpus : List (ℕ × ℕ)) (maxRetry : ℕ)
    (visible : Option ℕ) : Except Err ℕ × GpuState × ℕ :=
  pollGpus env hasLogger gpus maxRetry 0 ⟨visible, []⟩

end Verif.Utils
