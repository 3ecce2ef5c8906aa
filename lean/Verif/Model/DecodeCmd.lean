import Verif.Model.HMM
import Verif.Model.Graph
import Verif.Model.Pipeline
import Verif.Model.Decode
import Verif.Model.Eval

/-!
# Decoding utterances

* `beer/models/hmm.py` 36-38 and 105-114 (`decode`), with `beer/models/modelset.py` 140-146
* `beer/cli/subcommands/hmm/decode.py` 42-90
* `beer/cli/subcommands/hmm/mkaligraph.py` 42-67

The features of an utterance are seen through the expected log-likelihoods of its frames for every emission model:
`llh t p` for frame `t` and pdf `p`, real numbers.  Files are dictionaries.  A line of text is the list of its tokens.
-/

namespace Verif.DecodeCmd

open Verif Pipeline

/-- A `CompiledGraph` with at least one state, `graph.py` 243-260: `last + 1` states, `pdf` is `pdf_id_mapping`. -/
structure LGraph where
  last : ℕ
  graph : CGraph (last + 1)
  pdf : Fin (last + 1) → ℕ

/-- `graph.py` 239-240: the logarithms of the probabilities. The graphs of the model hold no NaN: probabilities divided
by zero are a `ValueError` here, and so is a graph without emitting states (`argmax` of nothing raises later on). -/
noncomputable def logGraph (c : Graph.Compiled ℝ) : Except Err LGraph :=
  match c.init, c.final with
  | some i, some f =>
    if c.pdfMapping = [] then .error .valueError
    else .ok ⟨c.pdfMapping.length - 1, ⟨fun k => llog (i k), fun k => llog (f k), fun a b => llog (c.trans a b)⟩,
      fun k => c.pdfMapping.getD k 0⟩
  | _, _ => .error .valueError

/-- What `decode` reads of a model: its graph, the number of emission models, the items of `start_pdf`. -/
structure HModel where
  graph : LGraph
  nPdfs : ℕ
  startPdf : List (String × Option ℕ)

/-- `torch.argmax` for every size. -/
abbrev Argmax := ∀ k : ℕ, Frame (k + 1) → Fin (k + 1)

/-- The features of an utterance: the number of frames and the log-likelihoods. -/
structure Feats where
  n : ℕ
  llh : Fin n → ℕ → ℝ

/-- `HMM.decode`, `hmm.py` 105-114: the pdf ids of the best path. The columns of the graph are picked among those of the
emission models (`modelset.py` 146), an index out of range raises `IndexError`. -/
noncomputable def decode (am : Argmax) (m : HModel) (scale : ℝ) (inferenceGraph : Option LGraph) (x : Feats) :
    Except Err (List ℕ) :=
  let g := inferenceGraph.getD m.graph
  if (List.finRange (g.last + 1)).any (fun k => decide (m.nPdfs ≤ g.pdf k)) then .error .indexError
  else
    match bestPathPy (am g.last) g.graph x.n (fun t k => ((scale * x.llh t (g.pdf k) : ℝ) : LogR)) with
    | .error e => .error e
    | .ok path => .ok (path.map g.pdf)

/-- `start_pdf` for `state2phone`: an item whose value is `None` is never equal to a state. -/
def starts (startPdf : List (String × Option ℕ)) : List (String × ℕ) :=
  startPdf.filterMap fun item => item.2.map fun v => (item.1, v)

/-- `alis[utt.id][0]` or `None`, `decode.py` 73-78: an empty archive is false. -/
def aliOf (alis : Option (List (String × LGraph))) (id : String) : Option LGraph :=
  match alis with
  | none => none
  | some d => if d = [] then none else
    match dictGet d id with
    | .error _ => none
    | .ok g => some g

/-- The loop of `decode.py` 66-88: the lines printed and the error which ended it. `bound` tells whether the variable
`utt`, which the warning of line 70 prints, has a value. -/
noncomputable def decodeLoop (am : Argmax) (m : HModel) (scale : ℝ) (perFrame : Bool)
    (alis : Option (List (String × LGraph))) (dataset : List (String × Feats)) :
    Bool → List String → List (String × List String) × Option Err
  | _, [] => ([], none)
  | bound, name :: rest =>
    match dictGet dataset name with
    | .error _ => if bound then decodeLoop am m scale perFrame alis dataset bound rest else ([], some .nameError)
    | .ok x =>
      match decode am m scale (aliOf alis name) x with
      | .error e => ([], some e)
      | .ok path =>
        match Decode.state2phone (starts m.startPdf) perFrame path with
        | .error e => ([], some e)
        | .ok phones =>
          let r := decodeLoop am m scale perFrame alis dataset true rest
          ((name, phones) :: r.1, r.2)

/-- `decode.py` 56-63: the first token of every line of `--utts`, or all the utterances in the order of the data set. -/
def uttNames (utts : Option (List (List String))) (dataset : List (String × Feats)) : Except Err (List String) :=
  match utts with
  | none => .ok (dataset.map Prod.fst)
  | some lines => Eval.listComp (fun l => match l with | [] => .error .indexError | t :: _ => .ok t) lines

/-- `decode.py` 42-90. -/
noncomputable def main (am : Argmax) (m : HModel) (scale : ℝ) (perFrame : Bool)
    (alis : Option (List (String × LGraph))) (utts : Option (List (List String))) (dataset : List (String × Feats)) :
    List (String × List String) × Option Err :=
  match uttNames utts dataset with
  | .error e => ([], some e)
  | .ok names => decodeLoop am m scale perFrame alis dataset false names

/-- `mkaligraph.py` 49-65: the files written (by utterance) and the error which ended the loop. -/
def mkali {F : Type} [Field F] [LinearOrder F] (units : List (String × Graph F)) :
    List (List String) → List (String × Graph.Compiled F) → List (String × Graph.Compiled F) × Option Err
  | [], files => (files, none)
  | [] :: _, files => (files, some .indexError)
  | (_ :: []) :: rest, files => mkali units rest files
  | (uttid :: p :: phones) :: rest, files =>
    match createGraphFromSeq (p :: phones) units with
    | .error e => (files, some e)
    | .ok c => mkali units rest (dictSet files uttid c)

end Verif.DecodeCmd
