import Verif.Model.HMM
import Verif.Model.Utils
import Verif.Model.ModelSet
import Verif.Model.StickBreaking

/-!
# HMM with a given path, phone loops (`beer/models/hmm.py`, `beer/models/phoneloop.py`)

* `_inference` / `expected_log_likelihood` with an explicit state path, `hmm.py` 40-62, 73-92;
* `PhoneLoop`, `phoneloop.py` 12-101, `BigramPhoneLoop` 104-191.

The dictionaries `start_pdf` and `end_pdf` are given by their values in insertion order.
-/

namespace Verif.PhoneLoop

open Verif Verif.ModelSet Verif.Utils Verif.Dists

/-! ## Inference along a given path -/

variable {R : Type} [Field R]

/-- `trans_posts[i, src, dest] = 1`, `hmm.py:52-54`: the entries set to one, for a table of `m`
transitions between `n` states. -/
def transEntries (m n : ℕ) : ℕ → List (ℤ × ℤ) → Except Err (List (ℕ × ℕ × ℕ))
  | _, [] => .ok []
  | i, (src, dest) :: rest =>
    if i < m then
      match normIdx n src, normIdx n dest with
      | some s, some d =>
        match transEntries m n (i + 1) rest with
        | .error e => .error e
        | .ok l => .ok ((i, s, d) :: l)
      | _, _ => .error .indexError
    else .error .indexError

/-- `(pc_llhs * resps).sum(dim=-1)`, `hmm.py:87`, with broadcasting of the frames. -/
def weightRows (pc : List (List R)) (resps : List (List ℕ)) : Except Err (List R) :=
  let dot : List R → List ℕ → R := fun a b => (List.zipWith (fun x (k : ℕ) => x * (k : R)) a b).sum
  if pc.length = resps.length then .ok (List.zipWith dot pc resps)
  else match pc, resps with
    | _, [r] => .ok (pc.map (dot · r))
    | [p], _ => .ok (resps.map (dot p))
    | _, _ => .error .runtimeError

/-- What an evaluation along a path returns: responsibilities, transitions set to one (if asked for),
value of every frame. -/
structure PathOut (R : Type) where
  resps : List (List ℕ)
  trans : Option (List (ℕ × ℕ × ℕ))
  value : List R

/-- `HMM._inference` with a path (`hmm.py:42-58`) and the end of `expected_log_likelihood`
(`hmm.py:87`): `n` states, `pc` the per-frame rows of `pc_llhs`. The last statement of the branch,
`llh = pc_llhs[path].sum()`, indexes the rows (frames) of `pc_llhs` by the states of the path. -/
def evalPath (n : ℕ) (pc : List (List R)) (path : List ℤ) (transPosteriors : Bool) :
    Except Err (PathOut R) :=
  match onehot path n with
  | .error e => .error e
  | .ok posts =>
    match (if transPosteriors then
        (if pc.length = 0 then .error .runtimeError
         else match transEntries (pc.length - 1) n 0 (path.zip path.tail) with
          | .error e => .error e
          | .ok l => .ok (some l))
      else .ok none : Except Err (Option (List (ℕ × ℕ × ℕ)))) with
    | .error e => .error e
    | .ok tr =>
      match path.mapM (getInt pc) with
      | .error e => .error e
      | .ok _ =>
        match weightRows pc posts with
        | .error e => .error e
        | .ok v => .ok ⟨posts, tr, v⟩

/-! ## Refreshing the transitions of a phone loop -/

variable {n P : ℕ}

/-- Log transition probabilities between the `n` states. -/
abbrev TMat (n : ℕ) := Fin n → Fin n → LogR

/-- `T[e, s] = v`. -/
def setEntry (T : TMat n) (e s : Fin n) (v : LogR) : TMat n :=
  Function.update T e (Function.update (T e) s v)

/-- The body of the loop over the phone ends, `phoneloop.py:62-65` and `153-157`. -/
noncomputable def refreshEnd (starts : Fin P → Fin n) (logWeights : Fin P → ℝ) (T : TMat n)
    (e : Fin n) : TMat n :=
  let loopProb := lexp (T e e)
  let residual := llog (1 - loopProb)
  (List.finRange P).foldl (fun T j => setEntry T e (starts j) (residual + (logWeights j : LogR))) T

/-- `PhoneLoop._on_weights_update`, `phoneloop.py:53-65`. -/
noncomputable def refresh (starts : Fin P → Fin n) (ends : List (Fin n)) (logWeights : Fin P → ℝ)
    (T : TMat n) : TMat n :=
  ends.foldl (refreshEnd starts logWeights) T

/-- A training: one refresh per update of the weights. -/
noncomputable def refreshAll (starts : Fin P → Fin n) (ends : List (Fin n)) (T : TMat n)
    (history : List (Fin P → ℝ)) : TMat n :=
  history.foldl (fun T w => refresh starts ends w T) T

/-- Row `i` of `torch.eye(P)`. -/
noncomputable def eyeRow (P : ℕ) (i : Fin P) : List ℝ := List.ofFn fun j => if j = i then 1 else 0

/-- `log_weights` of a `Categorical` with Dirichlet concentrations `c`, `phoneloop.py:57-59`
(`expected_log_likelihood` of the statistics of the identity matrix). -/
noncomputable def unigramLogWeights (c : List ℝ) (j : Fin P) : ℝ :=
  catExpLlh c (eyeRow P j)

/-! ## Statistics of the phone weights -/

/-- `phoneloop.py:88-94`: `trans_resps.sum(0)[:, start_idxs][end_idxs, :].sum(0) +
resps[0][start_idxs]`. -/
noncomputable def phoneCounts {m : ℕ} (starts : Fin P → Fin n) (ends : List (Fin n))
    (resps0 : Fin n → ℝ) (transResps : Fin m → Fin n → Fin n → ℝ) (j : Fin P) : ℝ :=
  (ends.map fun e => ∑ t, transResps t e (starts j)).sum + resps0 (starts j)

/-- The part of the cache read by `accumulate`: first row of `resps`, and `trans_resps` when the key
is there. -/
structure Cache (n : ℕ) where
  resps0 : Fin n → ℝ
  trans : Option (Σ m : ℕ, Fin m → Fin n → Fin n → ℝ)

/-- `PhoneLoop.accumulate`, `phoneloop.py:83-101`: statistics of the phone weights (before
`sufficient_statistics` in the first branch; the second branch stores zeros). -/
noncomputable def accumulateCounts (starts : Fin P → Fin n) (ends : List (Fin n)) (c : Cache n) :
    List ℝ :=
  match c.trans with
  | some ⟨_, x⟩ => catStats (List.ofFn (phoneCounts starts ends c.resps0 x))
  | none => List.ofFn fun _ : Fin P => 0

/-- An utterance given to `evidence_lower_bound`: posteriors of its first frame, transition
posteriors, and whether it comes with an alignment graph. -/
structure PUtt (n : ℕ) where
  resps0 : Fin n → ℝ
  frames : ℕ
  trans : Fin frames → Fin n → Fin n → ℝ
  aligned : Bool

/-- `HMM.expected_log_likelihood`, `hmm.py:76-85`, effect on the cache: without alignment graph both
keys are set, with one only `resps` is (an older `trans_resps` stays). -/
noncomputable def cacheAfter (old : Option (Cache n)) (u : PUtt n) : Cache n :=
  if u.aligned then ⟨u.resps0, (old.bind Cache.trans)⟩ else ⟨u.resps0, some ⟨u.frames, u.trans⟩⟩

/-- `evidence_lower_bound` (`inference/objectives.py:182-186`): evaluate, accumulate, clear the
cache.  Returns the statistics of the weights. -/
noncomputable def elboCounts (starts : Fin P → Fin n) (ends : List (Fin n)) (old : Option (Cache n))
    (u : PUtt n) : List ℝ × Option (Cache n) :=
  (accumulateCounts starts ends (cacheAfter old u), none)

/-- A sequence of utterances. -/
noncomputable def elboCountsAll (starts : Fin P → Fin n) (ends : List (Fin n)) :
    Option (Cache n) → List (PUtt n) → List (List ℝ)
  | _, [] => []
  | old, u :: us =>
    let r := elboCounts starts ends old u
    r.1 :: elboCountsAll starts ends r.2 us

/-! ## Bigram phone loop -/

/-- `CategoricalSet.expected_log_likelihood` (`categoricalset.py:46-48`) of the statistics of the
identity matrix: `stats @ nparams.t()`, row `i` for data row `i`, column `k` for distribution `k`. -/
noncomputable def setLogLikelihood (c : Fin P → List ℝ) (i k : Fin P) : ℝ :=
  vdot (catStats (eyeRow P i)) (dirExpStats (c k))

/-- `SBCategoricalSet.expected_log_likelihood` (`categoricalset.py:299-301`) of the identity matrix:
`stats @ log_prob[:, reverse_ordering]`, where row `m` of `log_prob` is distribution `m`. -/
noncomputable def sbSetLogLikelihood [NeZero P] (ordering : Fin P → Fin P)
    (c : Fin P → Fin P → ℝ × ℝ) (i k : Fin P) : ℝ :=
  ∑ m, (if i = m then (1 : ℝ) else 0) * (sbLogProb ordering (c m)).1 (reverseOrdering ordering k)

/-- `BigramPhoneLoop._on_weights_update`, `phoneloop.py:145-157`: the `i`-th phone end gets row `i`
of `log_weights`. -/
noncomputable def bigramRefresh (starts ends : Fin P → Fin n) (logWeights : Fin P → Fin P → ℝ)
    (T : TMat n) : TMat n :=
  (List.finRange P).foldl (fun T i => refreshEnd starts (logWeights i) T (ends i)) T

/-- `phoneloop.py:180-186` and `accumulate_from_jointresps`: `trans_resps[:, :, start][:, end, :]`
summed over the frames; row `i` updates distribution `i`. -/
noncomputable def bigramCounts {m : ℕ} (starts ends : Fin P → Fin n)
    (transResps : Fin m → Fin n → Fin n → ℝ) (i j : Fin P) : ℝ :=
  ∑ t, transResps t (ends i) (starts j)

/-- The two classes of sets of categorical distributions. -/
inductive CatSetKind
  | categoricalSet
  | sbCategoricalSet
deriving DecidableEq

/-- Calling `categoricalset.accumulate` with one positional argument: `CategoricalSet.accumulate`
(`categoricalset.py:50`) requires two, `SBCategoricalSet.accumulate` (303-304) raises. -/
def accumulateOneArg : CatSetKind → Except Err (List (List ℝ))
  | .categoricalSet => .error .typeError
  | .sbCategoricalSet => .error .notImplemented

/-- `BigramPhoneLoop.accumulate`, `phoneloop.py:175-191`: statistics of the bigram weights, one row
per context. -/
noncomputable def bigramAccumulate (kind : CatSetKind) (starts ends : Fin P → Fin n) (c : Cache n) :
    Except Err (List (List ℝ)) :=
  match c.trans with
  | some ⟨_, x⟩ =>
    let rows := List.ofFn fun i : Fin P => List.ofFn (bigramCounts starts ends x i)
    match kind with
    | .categoricalSet => .ok (rows.map catStats)
    | .sbCategoricalSet => .ok rows
  | none => accumulateOneArg kind

end Verif.PhoneLoop
