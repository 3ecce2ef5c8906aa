import Verif.Model.DecodeCmd
import Mathlib.Algebra.Order.Monoid.WithTop
import Mathlib.Algebra.BigOperators.Fin

/-!
# The posteriors of the states and of the units of utterances

* `beer/models/hmm.py` 36-38 and 116-121 (`posteriors`), with `beer/models/modelset.py` 68-75 and 137-146
* `beer/models/normalset.py` 111-119, `beer/models/mixtureset.py` 82-98: one frame
* `beer/cli/subcommands/hmm/posteriors.py` 30-74

The features of an utterance are given by the sufficient statistics of its frames, vectors of size `d`.  The likelihood
functions of Normal sets are `stats @ pdfvecs.t() + log_basemeasure` (`normaldiag.py` 37-41, `normalgamma.py` 55-59).
Mixtures have at least one component; their log weights are given.  Floats are real numbers or NaN.
-/

namespace Verif.PostCmd

open Verif Pipeline DecodeCmd

variable {d : ℕ}

/-- A member of a `JointModelSet`: a set of Normals, given by their expected natural parameters, or a set of mixtures,
given by the log weight and the expected natural parameters of every component. -/
inductive Member (d : ℕ)
  | normals (base : ℝ) (nat : List (Fin d → ℝ))
  | mixtures (base : ℝ) (mix : List (List (ℝ × (Fin d → ℝ))))

/-- `__len__`. -/
def Member.size : Member d → ℕ
  | .normals _ nat => nat.length
  | .mixtures _ mix => mix.length

/-- `stats @ pdfvecs.t() + log_basemeasure`, one frame and one pdf. -/
def affine (base : ℝ) (stats nat : Fin d → ℝ) : ℝ := ∑ i, stats i * nat i + base

/-- `expected_log_likelihood` of a set, one frame: `normalset.py` 117-119, `mixtureset.py` 85-93. -/
noncomputable def Member.row (stats : Fin d → ℝ) : Member d → List ℝ
  | .normals base nat => nat.map (affine base stats)
  | .mixtures base mix => mix.map fun comps =>
      Real.log ((comps.map fun c => Real.exp (affine base stats c.2 + c.1)).sum)

/-- `JointModelSet.expected_log_likelihood`, `modelset.py` 71-75, one frame. -/
noncomputable def setRow (set : List (Member d)) (stats : Fin d → ℝ) : List ℝ := set.flatMap (Member.row stats)

/-- What the command reads of a model. -/
structure PModel (d : ℕ) where
  graph : LGraph
  emissions : List (Member d)
  startPdf : List (String × ℕ)
  endPdf : List (String × ℕ)

/-- An utterance: the sufficient statistics of its frames. -/
structure UttStats (d : ℕ) where
  n : ℕ
  stats : Fin n → Fin d → ℝ

/-- A float: a number or NaN (`⊤`). -/
abbrev NFloat := WithTop ℝ

/-- `Option ℝ` is the result of `statePosts`. -/
def ofPost : Option ℝ → NFloat
  | none => ⊤
  | some p => (p : ℝ)

/-- `HMM.posteriors`, `hmm.py` 116-121: the statistics are multiplied by the scale. An index of the graph which is not
that of an emission raises `IndexError`. -/
noncomputable def posteriors (m : PModel d) (scale : ℝ) (x : UttStats d) : Except Err (List (List NFloat)) :=
  if (List.finRange (m.graph.last + 1)).any (fun k => decide ((m.emissions.map Member.size).sum ≤ m.graph.pdf k)) then
    .error .indexError
  else
    match posteriorsPy m.graph.graph x.n (fun t k =>
        (((setRow m.emissions fun i => x.stats t i * scale).getD (m.graph.pdf k) 0 : ℝ) : LogR)) with
    | .error e => .error e
    | .ok posts => .ok (List.ofFn fun t => List.ofFn fun k => ofPost (posts.1 t k))

/-- `EPS`, `hmm/posteriors.py` 13. -/
noncomputable def postEps : ℝ := 1 / 100000

/-- `np.log(EPS + posts)`, `hmm/posteriors.py` 69, one element. -/
noncomputable def logEps (p : NFloat) : NFloat := WithTop.map (fun p => Real.log (postEps + p)) p

/-- `state2phone`, `hmm/posteriors.py` 30-35 and 66-67, on all the frames. -/
noncomputable def toPhones (m : PModel d) (state : Bool) (posts : List (List NFloat)) : Except Err (List (List NFloat)) :=
  if state then .ok posts else Eval.listComp (Decode.phonePosteriors m.startPdf m.endPdf) posts

/-- `hmm/posteriors.py` 64-69: what is saved for an utterance. -/
noncomputable def fileOf (m : PModel d) (scale : ℝ) (state log : Bool) (x : UttStats d) : Except Err (List (List NFloat)) :=
  match posteriors m scale x with
  | .error e => .error e
  | .ok posts =>
    match toPhones m state posts with
    | .error e => .error e
    | .ok posts => .ok (if log then posts.map (List.map logEps) else posts)

/-- The output directory (by the name of the utterance) and `count`. -/
structure PostState where
  files : List (String × List (List NFloat))
  count : ℕ

/-- The loop of `hmm/posteriors.py` 57-72, with the error which ended it. -/
noncomputable def postLoop (m : PModel d) (scale : ℝ) (state log : Bool) (dataset : List (String × UttStats d)) :
    List String → PostState → PostState × Option Err
  | [], s => (s, none)
  | name :: rest, s =>
    match dictGet dataset name with
    | .error _ => postLoop m scale state log dataset rest s
    | .ok x =>
      match fileOf m scale state log x with
      | .error e => (s, some e)
      | .ok posts => postLoop m scale state log dataset rest ⟨dictSet s.files name posts, s.count + 1⟩

/-- `hmm/posteriors.py` 47-54: the first token of every line of `--utts`, or all the utterances in the order of the data
set. -/
def postNames (utts : Option (List (List String))) (dataset : List (String × UttStats d)) : Except Err (List String) :=
  match utts with
  | none => .ok (dataset.map Prod.fst)
  | some lines => Eval.listComp (fun l => match l with | [] => .error .indexError | t :: _ => .ok t) lines

/-- `hmm/posteriors.py` 38-74, from the files `out` of the output directory. -/
noncomputable def main (m : PModel d) (scale : ℝ) (state log : Bool) (utts : Option (List (List String)))
    (dataset : List (String × UttStats d)) (out : List (String × List (List NFloat))) : PostState × Option Err :=
  match postNames utts dataset with
  | .error e => (⟨out, 0⟩, some e)
  | .ok names => postLoop m scale state log dataset names ⟨out, 0⟩

end Verif.PostCmd
