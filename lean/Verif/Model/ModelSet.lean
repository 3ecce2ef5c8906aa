import Verif.Model.Py
import Mathlib.Algebra.Ring.Defs
import Mathlib.Algebra.BigOperators.Group.List.Basic
import Mathlib.Data.List.Range

/-!
# `beer/models/modelset.py`, `beer/models/mixtureset.py:114-132`, mean-field groups, `gsm.py:414-456`

A model set is a list of elements; a matrix `frames x components` is handled row by row, a row being a
list. `resps` rows and log-likelihood rows have one entry per component of the set.
-/

namespace Verif.ModelSet

/-! ## Python / torch indexing -/

/-- A Python index into a sequence of length `n`: negative values count from the end. -/
def normIdx (n : ℕ) (i : ℤ) : Option ℕ :=
  if 0 ≤ i then (if i < n then some i.toNat else none)
  else if -n ≤ i then some (i + n).toNat else none

/-- `seq[i]` for an integer `i`. -/
def getInt {α : Type*} (l : List α) (i : ℤ) : Except Err α :=
  match normIdx l.length i with
  | some k => match l[k]? with
    | some a => .ok a
    | none => .error .indexError
  | none => .error .indexError

/-- A Python `slice` object. -/
structure PySlice where
  start : Option ℤ
  stop : Option ℤ
  step : Option ℤ
deriving DecidableEq, Repr

/-- A slice bound applied to a sequence of length `n` (positive step): negative bounds count from the
end, out of range bounds are clipped. -/
def clampIdx (n : ℕ) (i : ℤ) : ℕ := if i < 0 then (i + n).toNat else min i.toNat n

/-- One element out of `k`. -/
def everyNth {α : Type*} (k : ℕ) (l : List α) : List α :=
  (List.range l.length).filterMap fun i => if i % k = 0 then l[i]? else none

/-- `tensor[start:stop:step]`: torch refuses non-positive steps with a `ValueError`. -/
def pySlice {α : Type*} (s : PySlice) (l : List α) : Except Err (List α) :=
  if s.step.getD 1 ≤ 0 then .error .valueError
  else
    let b := match s.start with | none => 0 | some i => clampIdx l.length i
    let e := match s.stop with | none => l.length | some i => clampIdx l.length i
    .ok (everyNth (s.step.getD 1).toNat ((l.take e).drop b))

/-! ## `MixtureSet.__getitem__`, `mixtureset.py` -/

/-- `MixtureSet`: the categoricals and the components, lines 53-56. -/
structure MixSet (α β : Type) where
  cats : List α
  comps : List β
deriving DecidableEq, Repr

/-- `n_comp_per_mixture`, lines 58-61 (`//` by zero raises). -/
def MixSet.ncpm {α β : Type} (m : MixSet α β) : Except Err ℕ :=
  if m.cats.length = 0 then .error .zeroDivision else .ok (m.comps.length / m.cats.length)

/-- `__getitem__` with an `int`, lines 121-124: the mixture is a categorical and its components. -/
def MixSet.getIdx {α β : Type} (m : MixSet α β) (key : ℤ) : Except Err (α × List β) := do
  let ncpm ← m.ncpm
  let s : PySlice := ⟨some (key * ncpm), some ((key + 1) * ncpm), none⟩
  let cat ← getInt m.cats key
  let comps ← pySlice s m.comps
  pure (cat, comps)

/-- `__getitem__` with a `slice`, lines 125-131. -/
def MixSet.getSlice {α β : Type} (m : MixSet α β) (key : PySlice) : Except Err (MixSet α β) := do
  let ncpm ← m.ncpm
  let start := match key.start with | none => 0 | some i => i * (ncpm : ℤ)
  let stop := match key.stop with | none => (m.cats.length : ℤ) | some i => i * (ncpm : ℤ)
  let step := match key.step with | none => 1 | some i => i * (ncpm : ℤ)
  let new : PySlice := ⟨some start, some stop, some step⟩
  let cats ← pySlice key m.cats
  let comps ← pySlice new m.comps
  pure ⟨cats, comps⟩

/-! ## `JointModelSet`, `modelset.py` lines 43-109 -/

/-- `__len__`, lines 105-109. -/
def jointLen {α : Type*} (ms : List (List α)) : ℕ := ms.foldl (fun len m => len + m.length) 0

/-- The loop of `__getitem__`, lines 98-103. -/
def jointGetLoop {α : Type*} (key : ℤ) : List (List α) → ℤ → Except Err α
  | [], _ => .error .indexError
  | m :: ms, total =>
    if key < total + m.length then getInt m (key - total)
    else jointGetLoop key ms (total + m.length)

/-- `__getitem__`, lines 91-103. -/
def jointGet {α : Type*} (ms : List (List α)) (key : ℤ) : Except Err α :=
  if key < 0 then .error .valueError else jointGetLoop key ms 0

/-- `expected_log_likelihood`, lines 71-75: one row. -/
def jointRow {R : Type*} (rows : List (List R)) : List R := rows.flatten

/-- The slices of a row of responsibilities given to the members, lines 79-84. -/
def jointSplit {R : Type*} (row : List R) : List ℕ → ℕ → List (List R)
  | [], _ => []
  | len :: lens, start => ((row.take (start + len)).drop start) :: jointSplit row lens (start + len)

/-- `dict.update`. -/
def dictUpdate {κ σ : Type*} [DecidableEq κ] (d new : κ → Option σ) : κ → Option σ :=
  fun k => match new k with | some v => some v | none => d k

/-- `accumulate`, lines 77-85: every member accumulates its columns into a dictionary. -/
def jointAccumulate {R κ σ : Type*} [DecidableEq κ] (resps : List (List R)) :
    List (ℕ × (List (List R) → κ → Option σ)) → ℕ → (κ → Option σ) → κ → Option σ
  | [], _, acc => acc
  | (len, accumulate) :: ms, start, acc =>
    jointAccumulate resps ms (start + len)
      (dictUpdate acc (accumulate (resps.map fun row => (row.take (start + len)).drop start)))

/-- `mean_field_factorization`, lines 59-66. -/
def jointGroups {π : Type*} : List (List (List π)) → List π → Except Err (List (List π))
  | [], acc => .ok [acc]
  | groups :: ms, acc =>
    if groups.length > 1 then .error .valueError
    else match groups with
      | [] => .error .indexError
      | g :: _ => jointGroups ms (acc ++ g)

/-! ## `DynamicallyOrderedModelSet`, `modelset.py` lines 112-164 -/

/-- The cache entry `'order'`. -/
abbrev OrderCache := Option (List ℤ)

/-- `expected_log_likelihood`, lines 140-146, one row of the original set of `n` components. -/
def orderedLlh {R : Type*} (order : Option (List ℤ)) (row : List R) :
    Except Err (List R) × OrderCache :=
  let order := match order with
    | none => (List.range row.length).map (fun i : ℕ => (i : ℤ))
    | some o => o
  (order.mapM (getInt row), some order)

/-- `new_resps[:, k] += val` for one row; negative `k` count from the end. -/
def addAt {R : Type*} [Add R] (row : List R) (k : ℤ) (val : R) : Except Err (List R) :=
  match normIdx row.length k with
  | some j => .ok (row.modify j (· + val))
  | none => .error .indexError

/-- The loop of lines 152-153, one row; `order[i]` raises when the order is exhausted. -/
def scatterLoop {R : Type*} [Add R] : List R → List ℤ → List R → Except Err (List R)
  | [], _, new => .ok new
  | _ :: _, [], _ => .error .indexError
  | val :: resps, k :: order, new =>
    match addAt new k val with
    | .ok new' => scatterLoop resps order new'
    | .error e => .error e

/-- `accumulate`, lines 148-154: the responsibilities handed to the original set of `n` components
(one row). -/
def orderedAccumulate {R : Type*} [Add R] [Zero R] (cache : OrderCache) (n : ℕ) (resps : List R) :
    Except Err (List R) :=
  match cache with
  | none => .error .keyError
  | some order => scatterLoop resps order (List.replicate n 0)

/-! ## `RepeatedModelSet`, lines 167-211 -/

/-- `expected_log_likelihood`, lines 194-197, one row. -/
def repeatRow {R : Type*} (r : ℕ) (row : List R) : List R := (List.replicate r row).flatten

/-- `reshape(-1, k)` of the flat list `l`, as a list of rows. -/
def chunks {R : Type*} (k : ℕ) (l : List R) : List (List R) :=
  (List.range (l.length / k)).map fun i => (l.drop (i * k)).take k

/-- Sum of rows of length `k`. -/
def sumRows {R : Type*} [Add R] [Zero R] (k : ℕ) (rows : List (List R)) : List R :=
  rows.foldl (List.zipWith (· + ·)) (List.replicate k 0)

/-- `accumulate`, lines 199-201, one row: `reshape(1, repeat, -1).sum(dim=1)`. -/
def repeatAccumulate {R : Type*} [Add R] [Zero R] (r : ℕ) (resps : List R) : Except Err (List R) :=
  if r = 0 ∨ resps.length % r ≠ 0 then .error .runtimeError
  else
    let k := resps.length / r
    .ok (sumRows k ((List.range r).map fun i => (resps.drop (i * k)).take k))

/-- `__getitem__`, lines 207-208 (`%` by zero raises). -/
def repeatGet {α : Type*} (ms : List α) (key : ℤ) : Except Err α :=
  if ms.length = 0 then .error .zeroDivision else getInt ms (key % ms.length)

/-- `__len__`, lines 210-211. -/
def repeatLen {α : Type*} (ms : List α) (r : ℕ) : ℕ := ms.length * r

/-- Iteration `for m in modelset` by the sequence protocol (`ModelSet` defines no `__iter__`, lines
11-38): `__getitem__(0)`, `__getitem__(1)`, ... until `IndexError`; `none` when more than `fuel`
elements are produced. -/
def iterate {α : Type*} (get : ℤ → Except Err α) : ℕ → ℕ → Option (Except Err (List α))
  | 0, _ => none
  | fuel + 1, i => match get i with
    | .error .indexError => some (.ok [])
    | .error e => some (.error e)
    | .ok a => match iterate get fuel (i + 1) with
      | none => none
      | some (.error e) => some (.error e)
      | some (.ok l) => some (.ok (a :: l))

/-! ## Mean-field groups of composite models -/

/-- `mean_field_factorization` of `Mixture` (`mixture.py:57-65`), `MixtureSet`
(`mixtureset.py:72-80`), `PhoneLoop` and `BigramPhoneLoop` (`phoneloop.py:70-78`, `162-170`): `l1` are
the groups of the model set and `l2` those of the categorical(s). -/
def mergeGroups {π : Type*} (l1 l2 : List (List π)) : List (List π) :=
  let diff : ℤ := (l1.length : ℤ) - l2.length
  let l2' := if diff > 0 then l2 ++ List.replicate diff.natAbs [] else l2
  let l1' := if diff > 0 then l1 else l1 ++ List.replicate diff.natAbs []
  List.zipWith (· ++ ·) l1' l2'

/-- `bayesian_parameters(keepgroups=False)`, `basemodel.py:43-53`; `keep` is the conjunction of the
type test and of the filter. -/
def bayesParams {π : Type*} (keep : π → Bool) (groups : List (List π)) : List π :=
  groups.flatMap fun g => g.filter keep

/-- `bayesian_parameters(keepgroups=True)`, lines 54-57. -/
def bayesGroups {π : Type*} (keep : π → Bool) (groups : List (List π)) : List (List π) :=
  groups.filterMap fun g => let g' := g.filter keep; if g'.length > 0 then some g' else none

/-! ## Super-vectors of subspace models, `gsm.py` -/

/-- What `_pdfvecs` and `_update_params` read from a parameter: the dimension `dim` of a real vector,
the number of pdfs, the width `pdfDim` of a pdf-vector (`pdfvec.shape[-1]`), the map from a real
vector to a pdf-vector, and the number of elements of its statistics. -/
structure SubParam (R : Type*) where
  dim : ℕ
  npdfs : ℕ
  pdfDim : ℕ
  toPdf : List R → List R
  numel : ℕ

/-- `_pdfvecs`, lines 429-440, for rows `rvecs`: for every parameter the matrix yielded. -/
def pdfvecs {R : Type*} (rvecs : List (List R)) :
    List (SubParam R) → ℕ → List (List (List R))
  | [], _ => []
  | p :: ps, idx =>
    let totdim := p.dim * p.npdfs
    let paramRvecs := chunks p.dim (rvecs.map fun row => (row.take (idx + totdim)).drop idx).flatten
    let pdfvec := paramRvecs.map p.toPdf
    let totdimZ := p.npdfs * p.pdfDim
    chunks totdimZ pdfvec.flatten :: pdfvecs rvecs ps (idx + totdim)

/-- `_pdfvecs_from_rvecs`, lines 484-490, for one model and one sample: `torch.cat(..., dim=-1)` of the
only rows. -/
def pdfvecsFromRvec {R : Type*} (ps : List (SubParam R)) (rvec : List R) : List R :=
  ((pdfvecs [rvec] ps 0).map fun rows => rows.headD []).flatten

/-- `_update_params`, lines 444-450: the vector stored in every parameter (`reshape` to the shape of
the statistics raises when the number of elements differs). -/
def updateParams {R : Type*} (vec : List R) : List (SubParam R) → ℕ → Except Err (List (List R))
  | [], _ => .ok []
  | p :: ps, idx =>
    let slice := (vec.take (idx + p.numel)).drop idx
    if slice.length ≠ p.numel then .error .runtimeError
    else match updateParams vec ps (idx + p.numel) with
      | .ok rest => .ok (slice :: rest)
      | .error e => .error e

/-! ## `Model.replace_parameters`, `basemodel.py:88-104` -/

/-- A module: a Bayesian parameter (identified by its uuid), an instance of `Model` or another module
(`torch.nn.ModuleList`, network, ...), with named children. -/
inductive Mod where
  | param (id : ℕ)
  | node (isModel : Bool) (children : List (String × Mod))

/-- The children of the nodes of the module tree that are parameters, in depth-first order. -/
def Mod.params : Mod → List ℕ
  | .param i => [i]
  | .node _ cs => paramsList cs
where
  /-- Parameters of a list of children. -/
  paramsList : List (String × Mod) → List ℕ
    | [] => []
    | (_, c) :: cs => c.params ++ paramsList cs

/-- `_replace_params` on the children of a module, lines 89-94. `named_children` yields a child only
once (`seen` are the parameters already met under this module): a second name for the same parameter
is skipped. `paramsmap` maps parameters (keys) to modules. -/
def replaceChildren (paramsmap : ℕ → Option Mod) :
    List (String × Mod) → List ℕ → List (String × Mod)
  | [], _ => []
  | (name, .param i) :: cs, seen =>
    if i ∈ seen then (name, .param i) :: replaceChildren paramsmap cs seen
    else match paramsmap i with
      | some new => (name, new) :: replaceChildren paramsmap cs (i :: seen)
      | none => (name, .param i) :: replaceChildren paramsmap cs (i :: seen)
  | (name, .node true sub) :: cs, seen =>
    (name, .node true (replaceChildren paramsmap sub [])) :: replaceChildren paramsmap cs seen
  | (name, .node false sub) :: cs, seen =>
    (name, .node false sub) :: replaceChildren paramsmap cs seen

/-- `replace_parameters`, lines 96-104. -/
def replaceParameters (paramsmap : ℕ → Option Mod) : Mod → Mod
  | .param i => .param i
  | .node b cs => .node b (replaceChildren paramsmap cs [])

end Verif.ModelSet
