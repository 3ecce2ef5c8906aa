import Verif.Model.Eval

/-!
# Elements of sets: views on distributions and parameters

`beer/dists/basedist.py` (`ParametersView`, `ExponentialFamily.__getitem__`), `beer/models/parameters.py`,
`beer/models/gsm.py` (`SubspaceBayesianParameter`, `SubspaceBayesianParameterView`).

Objects with memory: the parameters of distributions live in a heap; a distribution refers either to an object of
the heap or to a view. Simplifications: a parameter has one leading axis (one row for each distribution of the
set) and rows are opaque (indexing a single distribution is refused, whereas the code would index inside the
vector); slices have non-negative bounds and step 1; values assigned to a slice or a list have one row for each
position (no broadcasting).
-/

namespace Verif.Views

open Verif Pipeline

variable {V : Type}

/-- A tensor: one row, or several. -/
inductive Val (V : Type) where
  | one (v : V)
  | many (rows : List V)
  deriving DecidableEq

/-- An index: `x[k]`, `x[start:stop]`, `x[[k1, k2, ...]]`. -/
inductive Key where
  | int (k : ℤ)
  | slice (start stop : ℕ)
  | list (ks : List ℤ)
  deriving DecidableEq

/-- Position of the index `k` among `n` rows; negative ones count from the end. -/
def position (n : ℕ) (k : ℤ) : Except Err ℕ :=
  if 0 ≤ k ∧ k < n then .ok k.toNat
  else if -(n : ℤ) ≤ k ∧ k < 0 then .ok (k + n).toNat
  else .error .indexError

/-- The row at an index. -/
def rowAt (rows : List V) (k : ℤ) : Except Err V :=
  match position rows.length k with
  | .error e => .error e
  | .ok i =>
    match rows[i]? with
    | none => .error .indexError
    | some v => .ok v

/-- `tensor[key]`. -/
def Val.index : Val V → Key → Except Err (Val V)
  | .one _, _ => .error .indexError
  | .many rows, .int k =>
    match rowAt rows k with
    | .error e => .error e
    | .ok v => .ok (.one v)
  | .many rows, .slice a b => .ok (.many ((rows.take b).drop a))
  | .many rows, .list ks =>
    match Eval.listComp (rowAt rows) ks with
    | .error e => .error e
    | .ok vs => .ok (.many vs)

/-! ## Distributions -/

/-- A parameters object: its attributes. -/
abbrev Params (V : Type) := List (String × Val V)

/-- What the attribute `params` of a distribution refers to: an object of the heap or a `ParametersView`
(`basedist.py` 47-55: `ref`, `idx`). -/
inductive PRef where
  | own (loc : ℕ)
  | view (ref : PRef) (idx : Key)
  deriving DecidableEq

/-- `getattr(params, name)`; for a view `getattr(self.ref, name)[self.idx]`, `basedist.py` 52-53. -/
def attr (heap : List (Params V)) : PRef → String → Except Err (Val V)
  | .own l, name =>
    match heap[l]? with
    | none => .error .attributeError
    | some p =>
      match p.lookup name with
      | none => .error .attributeError
      | some t => .ok t
  | .view ref idx, name =>
    match attr heap ref name with
    | .error e => .error e
    | .ok t => t.index idx

/-- The memory: parameters objects, and for every distribution what its `params` refers to. -/
structure State (V : Type) where
  heap : List (Params V)
  dists : List PRef

/-- Attribute of a distribution. -/
def State.read (s : State V) (d : ℕ) (name : String) : Except Err (Val V) :=
  match s.dists[d]? with
  | none => .error .nameError
  | some ref => attr s.heap ref name

/-- What programs do with distributions: `dist[key]` (`ExponentialFamily.__getitem__`, `basedist.py` 131-133),
`update_from_natural_parameters` (in all the distributions, e.g. `normalgamma.py` 183: `self.params` is bound to a
new object) and a step of a torch optimiser (the tensors of an object of the heap are changed in place). -/
inductive Op (V : Type) where
  | getitem (d : ℕ) (key : Key)
  | update (d : ℕ) (new : Params V)
  | step (loc : ℕ) (new : Params V)

/-- The effect of an operation; operations on distributions that do not exist do nothing. -/
def State.run (s : State V) : Op V → State V
  | .getitem d key =>
    match s.dists[d]? with
    | none => s
    | some ref => { s with dists := s.dists ++ [.view ref key] }
  | .update d new => { heap := s.heap ++ [new], dists := s.dists.set d (.own s.heap.length) }
  | .step loc new => { s with heap := s.heap.set loc new }

/-- A program. -/
def State.runAll (s : State V) (ops : List (Op V)) : State V := ops.foldl State.run s

/-- `for x in dist` (iteration by `__getitem__(0)`, `__getitem__(1)`, ... until `IndexError`): the state after
`fuel` elements, `none` if the loop ended before. `__getitem__` does not read the parameters, hence never
raises. -/
def State.iterate (s : State V) (d : ℕ) : ℕ → ℕ → Option (State V)
  | 0, _ => some s
  | fuel + 1, k =>
    match s.dists[d]? with
    | none => none
    | some _ => (s.run (.getitem d (.int k))).iterate d fuel (k + 1)

/-! ## Parameters -/

/-- `hash(self)`, `parameters.py` 42-43: the hash of the integer of the identifier (CPython: modulo `2^61 - 1`). -/
def hash (uuid : ℕ) : ℕ := uuid % (2 ^ 61 - 1)

/-- `__eq__`, `parameters.py` 45-48: the test of the classes compares `other` with itself. -/
def eq (uuid other : ℕ) : Bool := hash uuid == hash other

/-- A `ConjugateBayesianParameter`: identifier, prior and posterior (distributions of the state), statistics and
observers. -/
structure CParam (V : Type) where
  uuid : ℕ
  prior : ℕ
  posterior : ℕ
  stats : Val V
  callbacks : List (ℕ × Bool)

/-- `ConjugateBayesianParameter.__getitem__`, `parameters.py` 105-109, 17-22 and 90-99; `fresh` is the new
identifier, the statistics are copied, there is no observer. -/
def CParam.getitem (s : State V) (p : CParam V) (fresh : ℕ) (key : Key) : Except Err (State V × CParam V) :=
  match s.dists[p.prior]?, s.dists[p.posterior]? with
  | some _, some _ =>
    let s1 := s.run (.getitem p.prior key)
    let s2 := s1.run (.getitem p.posterior key)
    match p.stats.index key with
    | .error e => .error e
    | .ok st => .ok (s2, ⟨fresh, s.dists.length, s1.dists.length, st, []⟩)
  | _, _ => .error .attributeError

/-- Changes of a parameter: `store_stats` (115-129), `zero_stats` (111-113, `z` the zero row),
`natural_grad_update` (134-141, `new` the parameters computed from the natural ones). -/
inductive POp (V : Type) where
  | store (st : Val V)
  | zero (z : V)
  | update (new : Params V)

/-- All the rows replaced by zeros. -/
def Val.zeros (z : V) : Val V → Val V
  | .one _ => .one z
  | .many rows => .many (rows.map fun _ => z)

/-- The effect of a change. -/
def CParam.run (sp : State V × CParam V) : POp V → State V × CParam V
  | .store st => (sp.1, { sp.2 with stats := st })
  | .zero z => (sp.1, { sp.2 with stats := sp.2.stats.zeros z })
  | .update new => (sp.1.run (.update sp.2.posterior new), sp.2)

/-- `register_callback`, `parameters.py` 56-65: a set. -/
def CParam.register (p : CParam V) (callback : ℕ) (before : Bool) : CParam V :=
  if (callback, before) ∈ p.callbacks then p else { p with callbacks := p.callbacks ++ [(callback, before)] }

/-- What happens during an update. -/
inductive Event where
  | call (callback : ℕ)
  | updated
  deriving DecidableEq

/-- `dispatch`, `parameters.py` 50-54. -/
def CParam.dispatch (p : CParam V) (before : Bool) : List Event :=
  (p.callbacks.filter fun c => c.2 == before).map fun c => .call c.1

/-- The events of `natural_grad_update`, `parameters.py` 134-141. -/
def CParam.events (p : CParam V) : List Event := p.dispatch true ++ [.updated] ++ p.dispatch false

/-! ## Parameters of subspace models -/

/-- A `SubspaceBayesianParameter`: statistics and pdf-vectors, `gsm.py` 349-353. -/
structure SParam (V : Type) where
  stats : Val V
  pdfvec : Val V
  deriving DecidableEq

/-- `rows[position of k] = v`. -/
def setRow (rows : List V) (k : ℤ) (v : V) : Except Err (List V) :=
  match position rows.length k with
  | .error e => .error e
  | .ok i => .ok (rows.set i v)

/-- `rows[ks] = vs`, in order (simplification: repeated positions keep the last value). -/
def setRows (rows : List V) : List ℤ → List V → Except Err (List V)
  | [], [] => .ok rows
  | k :: ks, v :: vs =>
    match setRow rows k v with
    | .error e => .error e
    | .ok rows' => setRows rows' ks vs
  | _, _ => .error .runtimeError

/-- `tensor[key] = value`. -/
def Val.assign : Val V → Key → Val V → Except Err (Val V)
  | .many rows, .int k, .one v =>
    match setRow rows k v with
    | .error e => .error e
    | .ok rows' => .ok (.many rows')
  | .many rows, .slice a b, .many vs =>
    if vs.length = ((rows.take b).drop a).length then
      if vs = [] then .ok (.many rows) else .ok (.many (rows.take a ++ vs ++ rows.drop b))
    else .error .runtimeError
  | .many rows, .list ks, .many vs =>
    match setRows rows ks vs with
    | .error e => .error e
    | .ok rows' => .ok (.many rows')
  | .many _, _, _ => .error .runtimeError
  | .one _, _, _ => .error .indexError

/-- `view.stats`, `gsm.py` 380-382; a view is its key (the other attributes are those of the parameter). -/
def viewStats (p : SParam V) (key : Key) : Except Err (Val V) := p.stats.index key

/-- `view.stats = value`, `gsm.py` 384-386; also `view.store_stats(value)`. -/
def setViewStats (p : SParam V) (key : Key) (value : Val V) : Except Err (SParam V) :=
  match p.stats.assign key value with
  | .error e => .error e
  | .ok st => .ok { p with stats := st }

/-- `view.pdfvec`, `gsm.py` 388-390. -/
def viewPdfvec (p : SParam V) (key : Key) : Except Err (Val V) := p.pdfvec.index key

/-- `view.pdfvec = value`, `gsm.py` 392-394. -/
def setViewPdfvec (p : SParam V) (key : Key) (value : Val V) : Except Err (SParam V) :=
  match p.pdfvec.assign key value with
  | .error e => .error e
  | .ok st => .ok { p with pdfvec := st }

/-- `view.zero_stats()`, `parameters.py` 111-113: in place on the tensor `view.stats` gives; this tensor shares
the memory of the statistics when the key is an integer or a slice and is a copy when it is a list. -/
def zeroViewStats (z : V) (p : SParam V) (key : Key) : Except Err (SParam V) :=
  match p.stats.index key with
  | .error e => .error e
  | .ok st =>
    match key with
    | .list _ => .ok p
    | key => setViewStats p key (st.zeros z)

/-- `param.natural_form()`, `gsm.py` 358-359. -/
def paramNaturalForm (p : SParam V) : Option (Val V) := some p.pdfvec

/-- `view.natural_form()`, `gsm.py` 399-400: the attribute is read but not returned (`None`). -/
def viewNaturalForm (p : SParam V) (key : Key) : Except Err (Option (Val V)) :=
  match viewPdfvec p key with
  | .error e => .error e
  | .ok _ => .ok none

/-- `view[key]`, `gsm.py` 405-406: the key of the new view. -/
def viewGetitem (_old new : Key) : Key := new

/-- Keys of the models of `GSM.new_models`, `gsm.py` 537: deep copies, identifiers included. -/
def newModels (uuid nmodels : ℕ) : List ℕ := (List.range nmodels).map fun _ => uuid

/-- `JointModelSet.accumulate`, `modelset.py` 77-85, for sets with one parameter each (identifier, statistics): a
dictionary compares its keys by `__hash__` and `__eq__`. -/
def jointAccumulate : List (ℕ × V) → List (ℕ × V) → List (ℕ × V)
  | [], acc => acc
  | (u, st) :: rest, acc =>
    jointAccumulate rest
      (if acc.any (fun p => eq p.1 u) then acc.map fun p => if eq p.1 u then (p.1, st) else p else acc ++ [(u, st)])

end Verif.Views
