import Verif.Model.Graph
import Mathlib.Data.String.Basic
import Mathlib.Data.List.Sort
import Mathlib.Data.List.Dedup

/-!
# Decoding graphs as text

* `recipes/timit_v2/utils/create-decode-graph.py` 25-53
* `recipes/timit_v2/utils/prepare-decode-graph.py` 20-52

A line of the text is the name of two states and maybe a weight. Weights are elements of a field (printing and reading a
number give the number back); the order in which Python lists the set of arcs is an argument.
-/

namespace Verif.DecodeText

open Verif

variable {F : Type}

/-- A line of the text. -/
abbrev TextArc (F : Type) := String × String × Option F

/-- `create-decode-graph.py` 51-53; `i` is `start_idx + i`. -/
def loopLines (weights : List F) : List String → ℕ → Except Err (List (TextArc F))
  | [], _ => .ok []
  | phone :: phones, i =>
    match weights[i]? with
    | none => .error .indexError
    | some w =>
      match loopLines weights phones (i + 1) with
      | .error e => .error e
      | .ok r => .ok (("_1", phone, some w) :: (phone, "_1", none) :: r)

/-- `create-decode-graph.py` 37-53. -/
def createLines (useSilence : Bool) (phones : List String) (weights : List F) : Except Err (List (TextArc F)) :=
  if useSilence then
    match phones, weights with
    | silence :: rest, w :: _ =>
      match loopLines weights rest 1 with
      | .error e => .error e
      | .ok r => .ok (("[s]", silence, none) :: (silence, "[/s]", none) :: (silence, "_1", none) ::
          ("_1", silence, some w) :: r)
    | _, _ => .error .indexError
  else
    match loopLines weights phones 0 with
    | .error e => .error e
    | .ok r => .ok (("[s]", "_1", none) :: ("_1", "[/s]", none) :: r)

/-- `create-decode-graph.py` 31: without a language model all the weights are one. -/
def unitWeights [One F] (phones : List String) : List F := List.replicate phones.length 1

/-- The arc of a line, `prepare-decode-graph.py` 25-31. -/
def arcOf [One F] (l : TextArc F) : String × String × F := (l.1, l.2.1, l.2.2.getD 1)

/-- `sorted(list(states))`, lines 21-27 and 35. -/
def names (lines : List (TextArc F)) : List String :=
  (lines.flatMap fun l => [l.1, l.2.1]).dedup.insertionSort (· ≤ ·)

/-- `main`, lines 32-49: the graph and the names of its states. `order` lists the arcs of the set. -/
def prepareGraph [Field F] [DecidableEq F] (lines : List (TextArc F)) (order : List (String × String × F)) :
    Except Err (Graph F × List (ℕ × String)) :=
  let ns := names lines
  let g0 : Graph F := ns.foldl (fun g _ => (g.addState none).1) Graph.empty
  if "[s]" ∈ ns then
    if "[/s]" ∈ ns then
      let g1 := { g0 with startState := some (ns.idxOf "[s]"), endState := some (ns.idxOf "[/s]") }
      let g2 := order.foldl (fun g a => g.addArc (ns.idxOf a.1) (ns.idxOf a.2.1) a.2.2) g1
      match g2.normalize with
      | (_, some e) => .error e
      | (g, none) => .ok (g, ns.zipIdx.map Prod.swap)
    else .error .keyError
  else .error .keyError

end Verif.DecodeText
