import Verif.Model.Py
import Mathlib.Algebra.Module.Basic
import Mathlib.Algebra.Order.Field.Basic
import Mathlib.Data.Finset.Lattice.Basic
import Mathlib.Data.Finset.Union

/-!
# Objective, parameters and optimizers
(`beer/inference/objectives.py`, `beer/inference/optimizers.py`, `beer/models/parameters.py`)

* Parameters have an identity (`uuid`, `parameters.py:21,42-48`): a natural number.
* Dictionaries keyed by parameters are functions `ℕ → Option V`.
* Numbers are elements of a field `F`; natural parameters / statistics are elements of an
  `F`-module `V` (one vector space stands for all parameter shapes).
* The gradient of standard torch parameters (`objectives.py:95-96`) is not modelled, but the test
  `self.value.requires_grad` is, since it raises on the Python float of an empty objective.
-/

namespace Verif

variable {F V X : Type}

/-- A dictionary of accumulated statistics. -/
abbrev Acc (V : Type) := ℕ → Option V

/-- `objectives.py:10-34` `add_acc_stats`: keys in both dictionaries are summed, keys in only one
are copied. -/
def addAcc [Add V] (d1 d2 : Acc V) : Acc V := fun k =>
  match d1 k, d2 k with
  | some a, some b => some (a + b)
  | some a, none => some a
  | none, some b => some b
  | none, none => none

/-- `objectives.py:53-73` `EvidenceLowerBoundInstance`; `isTensor` tells whether `value` is a torch
tensor or a Python float (only the empty objective has a float). -/
structure Elbo (F V : Type) where
  value : F
  isTensor : Bool
  acc : Acc V
  params : Finset ℕ
  mb : ℕ
  datasize : ℤ

/-- A Python object given as operand of `+`. -/
inductive PyOperand (F V : Type) where
  | elbo (e : Elbo F V)
  | other

/-- `objectives.py:78-90` `__add__`. -/
def Elbo.add [Add F] [Add V] (e1 : Elbo F V) : PyOperand F V → Except Err (Elbo F V)
  | .other => .error .valueError
  | .elbo e2 =>
    if e1.datasize ≠ e2.datasize then .error .valueError
    else .ok { value := e1.value + e2.value
               isTensor := e1.isTensor || e2.isTensor
               acc := addAcc e1.acc e2.acc
               params := e1.params ∪ e2.params
               mb := e1.mb + e2.mb
               datasize := e1.datasize }

/-- What `evidence_lower_bound` asks of a model on a minibatch: `exp_llh.sum()`, the KL divergence
of the parameters, `accumulate` and the identities of its Bayesian parameters. -/
structure BModel (F V X : Type) where
  expLlh : List X → F
  kl : F
  accumulate : List X → Acc V
  params : Finset ℕ

/-- `objectives.py:172` the empty objective. -/
def Elbo.empty [Zero F] (datasize : ℤ) : Elbo F V :=
  { value := 0, isTensor := false, acc := fun _ => none, params := ∅, mb := 0, datasize := datasize }

/-- `objectives.py:119-190` `evidence_lower_bound`. `datasize / float(0)` raises
`ZeroDivisionError` for an empty minibatch. -/
def evidenceLowerBound [Field F] (model : Option (BModel F V X)) (data : Option (List X))
    (datasize : ℤ) : Except Err (Elbo F V) :=
  match model, data with
  | none, none => if datasize > 0 then .ok (Elbo.empty datasize) else .error .valueError
  | some m, some xs =>
    let ds : ℤ := if datasize ≤ 0 then xs.length else datasize
    if xs.length = 0 then .error .zeroDivision
    else .ok { value := ((ds : F) / (xs.length : F)) * m.expLlh xs - m.kl
               isTensor := true
               acc := m.accumulate xs
               params := m.params
               mb := xs.length
               datasize := ds }
  | _, _ => .error .valueError

/-- `elbo = empty; for e in es: elbo += e` (`cli/subcommands/hmm/accumulate.py:37-59`). -/
def accumulateJob [Field F] [Add V] (datasize : ℤ) (es : List (Elbo F V)) : Except Err (Elbo F V) :=
  es.foldlM (fun acc e => acc.add (.elbo e)) (Elbo.empty datasize)

/-- `cli/subcommands/hmm/update.py:39-56` merging of the job files:
the first one, then `+=`; without any file `elbo` stays `None` and `elbo.sync` raises. -/
def mergeJobs [Add F] [Add V] : List (Elbo F V) → Except Err (Elbo F V)
  | [] => .error .attributeError
  | e :: es => es.foldlM (fun acc e => acc.add (.elbo e)) e

/-! ## Parameters -/

/-- `parameters.py:83-99` a `ConjugateBayesianParameter` seen through the natural parameters of its
prior and posterior, and its stored statistics. -/
structure Param (V : Type) where
  prior : V
  post : V
  stats : V

/-- All parameter objects of the process, by identity. -/
abbrev Heap (V : Type) := ℕ → Param V

/-- Change one object. -/
def Heap.set (h : Heap V) (i : ℕ) (p : Param V) : Heap V := fun j => if j = i then p else h j

/-- `parameters.py:111-113` `zero_stats`. -/
def Param.zeroStats [Zero V] (p : Param V) : Param V := { p with stats := 0 }

/-- `parameters.py:115-129` `store_stats` (overwrites). -/
def Param.storeStats (p : Param V) (s : V) : Param V := { p with stats := s }

/-- `parameters.py:134-141` `natural_grad_update`, at the level of natural parameters (callbacks are
modelled with the models that register them). -/
def Param.update [Field F] [AddCommGroup V] [Module F V] (lrate : F) (p : Param V) : Param V :=
  { p with post := p.post + lrate • (p.prior + p.stats - p.post) }

/-- `objectives.py:92-107` `backward(std_params)`: the test of `requires_grad` on a Python float
raises `AttributeError`, no accumulated frame raises `ZeroDivisionError`; otherwise every parameter
known to the objective and having statistics gets them scaled. The iteration order over the set of
parameters does not matter since each parameter is written from its own entry. -/
def Elbo.backward [Field F] [AddCommGroup V] [Module F V] (stdParams : Bool) (e : Elbo F V)
    (h : Heap V) : Except Err (Heap V) :=
  if stdParams && !e.isTensor then .error .attributeError
  else if e.mb = 0 then .error .zeroDivision
  else
    .ok (fun i =>
      if i ∈ e.params then
        match e.acc i with
        | some s => (h i).storeStats (((e.datasize : F) / (e.mb : F)) • s)
        | none => h i
      else h i)

/-- `objectives.py:109-116` `sync`: the parameters of the objective become those of the model. -/
def Elbo.sync (params : Finset ℕ) (e : Elbo F V) : Elbo F V := { e with params := params }

/-! ## Optimizer -/

/-- `optimizers.py:8-13` `VBConjugateOptimizer`. -/
structure CjgOptim (F : Type) where
  groups : List (List ℕ)
  lrate : F
  count : ℕ

/-- `optimizers.py:15-16` `state_dict`. -/
def CjgOptim.stateDict (o : CjgOptim F) : F × ℕ := (o.lrate, o.count)

/-- `optimizers.py:18-20` `load_state_dict`. -/
def CjgOptim.loadStateDict (o : CjgOptim F) (s : F × ℕ) : CjgOptim F :=
  { o with lrate := s.1, count := s.2 }

/-- `optimizers.py:8-13` constructor. -/
def CjgOptim.new (groups : List (List ℕ)) (lrate : F) : CjgOptim F :=
  { groups := groups, lrate := lrate, count := 0 }

/-- `optimizers.py:22-25` `init_step`. -/
def CjgOptim.initStep [Zero V] (o : CjgOptim F) (h : Heap V) : Heap V :=
  o.groups.foldl (fun h group => group.foldl (fun h p => h.set p (h p).zeroStats) h) h

/-- `optimizers.py:27-31` `step`. -/
def CjgOptim.step [Field F] [AddCommGroup V] [Module F V] (o : CjgOptim F) (h : Heap V) :
    CjgOptim F × Heap V :=
  let h' :=
    if o.groups.length > 0 then
      (o.groups.getD (o.count % o.groups.length) []).foldl
        (fun h p => h.set p ((h p).update o.lrate)) h
    else h
  ({ o with count := o.count + 1 }, h')

end Verif
