import Verif.Model.Graph
import Mathlib.Data.List.Sort
import Mathlib.Data.List.Dedup
import Mathlib.Data.Int.Basic

/-!
# The commands building decoding and alignment graphs

`beer/cli/subcommands/hmm/mkphones.py`, `mkphoneloopgraph.py`, `mkdecodegraph.py` and `mkaligraph.py`.
Files are represented by their parsed content: the configuration is the list of the groups with their
topology (the other fields of a group only parameterise the emissions), the unit list is the list of
its lines `(name, group)`. Dictionaries are association lists in insertion order. State ids of a
topology are natural numbers. Of the emission models only the number is modelled.
-/

namespace Verif.Pipeline

open Verif

variable {F : Type}

/-- `d[k] = v` for a Python dictionary: an existing key keeps its position. -/
def dictSet {α β : Type} [DecidableEq α] (d : List (α × β)) (k : α) (v : β) : List (α × β) :=
  if k ∈ d.map Prod.fst then d.map (fun p => if p.1 = k then (k, v) else p) else d ++ [(k, v)]

/-- `d[k]`: `KeyError` when missing. -/
def dictGet {α β : Type} [DecidableEq α] (d : List (α × β)) (k : α) : Except Err β :=
  match d.find? (fun p => p.1 = k) with
  | some p => .ok p.2
  | none => .error .keyError

/-! ### mkphones -/

/-- `mkphones.py` 13-21 `parse_topology`: the sorted ids of the states of the arcs. The set of arcs is
the list itself (adding a second arc between the same states changes nothing, C01). -/
def topoIds (topo : List (Arc F)) : List ℕ :=
  ((topo.flatMap fun a => [a.start, a.stop]).dedup).insertionSort (· ≤ ·)

/-- `mkphones.py` 28-35: the loop adding the states, `pdf` being `start_pdf_id + count`. Pdf ids are
natural numbers: a negative one, only possible after a topology with a single state, is out of the
model. -/
def unitStates (first last : ℕ) : List ℕ → ℤ → Graph F → Graph F
  | [], _, g => g
  | i :: is, pdf, g =>
    if i = first ∨ i = last then unitStates first last is pdf (g.addState none).1
    else unitStates first last is (pdf + 1) (g.addState (some pdf.toNat)).1

/-- `mkphones.py` 24-39 `create_unit_graph`. -/
def createUnitGraph (topo : List (Arc F)) (startPdf : ℤ) : Except Err (Graph F × ℤ) :=
  let ids := topoIds topo
  match ids.head?, ids.getLast? with
  | some first, some last =>
    let g := unitStates first last (List.range ids.length) startPdf Graph.empty
    .ok (({ g with startState := some first, endState := some last } : Graph F).addArcs topo,
      startPdf + ids.length - 2)
  | _, _ => .error .indexError

/-- `mkphones.py` 42-46 `count_emitting_state`. -/
def countEmitting (g : Graph F) : ℕ := (g.states.filter (fun s => s.2.isSome)).length

/-- `mkphones.py` 78 `groups_conf`. -/
def groupsConf (conf : List (String × List (Arc F))) : List (String × List (Arc F)) :=
  conf.foldl (fun d p => dictSet d p.1 p.2) []

/-- `mkphones.py` 83-85: `grouped_unitnames[group].append(name)` for every line. -/
def groupUnits : List (String × String) → List (String × List String) →
    Except Err (List (String × List String))
  | [], d => .ok d
  | (name, group) :: ls, d =>
    match dictGet d group with
    | .error e => .error e
    | .ok names => groupUnits ls (dictSet d group (names ++ [name]))

/-- `mkphones.py` 105-111: the units of a group; the state is the next pdf id, the dictionary of the
units and the number of emitting states. -/
def makeGroup (topo : List (Arc F)) : List String → ℤ × List (String × Graph F) × ℕ →
    Except Err (ℤ × List (String × Graph F) × ℕ)
  | [], st => .ok st
  | name :: names, st =>
    match createUnitGraph topo st.1 with
    | .error e => .error e
    | .ok r => makeGroup topo names (r.2, dictSet st.2.1 name r.1, st.2.2 + countEmitting r.1)

/-- `mkphones.py` 49-61 `create_pdfs`: the number of emission models made for a group. Without emitting
states the integer division of `mixtureset.py:48` fails. -/
def createPdfs (tot : ℕ) : Except Err ℕ := if tot = 0 then .error .zeroDivision else .ok tot

/-- `mkphones.py` 102-112: the loop over the groups; the state is the next pdf id, the units and the
number of emission models, `bound` tells whether the variable `group_conf` was assigned by an earlier
group (it is only assigned in the loop over the names). -/
def makeGroups (gconf : List (String × List (Arc F))) : List (String × List String) → Bool →
    ℤ × List (String × Graph F) × ℕ → Except Err (ℤ × List (String × Graph F) × ℕ)
  | [], _, st => .ok st
  | (group, names) :: gs, bound, st =>
    if names = [] ∧ bound = false then .error .nameError
    else match dictGet gconf group with
    | .error e => .error e
    | .ok topo =>
      match makeGroup topo names (st.1, st.2.1, 0) with
      | .error e => .error e
      | .ok r =>
        match createPdfs r.2.2 with
        | .error e => .error e
        | .ok n => makeGroups gconf gs true (r.1, r.2.1, st.2.2 + n)

/-- `mkphones.py` 74-117 `main`: the HMM of the units and the number of emission models. -/
def mkphones (conf : List (String × List (Arc F))) (unitLines : List (String × String)) :
    Except Err (List (String × Graph F) × ℕ) :=
  let gconf := groupsConf conf
  match groupUnits unitLines (gconf.map fun p => (p.1, [])) with
  | .error e => .error e
  | .ok grouped =>
    match makeGroups gconf grouped false (0, [], 0) with
    | .error e => .error e
    | .ok st => .ok (st.2.1, st.2.2)

/-! ### mkphoneloopgraph -/

/-- `mkphoneloopgraph.py` 45: `{name: graph.add_state() for name, _ in units}`. -/
def addUnits : List (String × String) → Graph F × List (String × ℕ) → Graph F × List (String × ℕ)
  | [], st => st
  | (name, _) :: us, st =>
    let r := st.1.addState none
    addUnits us (r.1, dictSet st.2 name r.2)

/-- A loop adding an arc for every unit of a list. -/
def addUnitArcs (unit2state : List (String × ℕ)) (f : Graph F → ℕ → Graph F) :
    List String → Graph F → Except Err (Graph F)
  | [], g => .ok g
  | u :: us, g =>
    match dictGet unit2state u with
    | .error e => .error e
    | .ok s => addUnitArcs unit2state f us (f g s)

/-- `mkphoneloopgraph.py` 32-37 the graph with the start, end and pivot states. -/
def loopBase : Graph F :=
  let g := ((((Graph.empty : Graph F).addState none).1.addState none).1.addState none).1
  { g with startState := some 0, endState := some 1 }

/-- `mkphoneloopgraph.py` 48-55 `start_end_units`; `group` is the option `--start-end-group` (`none`
also stands for the empty string). -/
def startEndUnits (units : List (String × String)) (state2unit : List (ℕ × String)) :
    Option String → Except Err (List String)
  | some grp => .ok ((units.filter (fun u => u.2 = grp)).map Prod.fst)
  | none =>
    match dictGet state2unit 2 with
    | .error e => .error e
    | .ok u => .ok [u]

/-- `mkphoneloopgraph.py` 23-81 `main`: the graph and its symbol table. -/
def mkphoneloopgraph [Field F] [DecidableEq F] (units : List (String × String))
    (group : Option String) : Except Err (Graph F × List (ℕ × String)) :=
  let r := addUnits units ((loopBase : Graph F), [])
  let unit2state := r.2.foldl (fun d p => dictSet d p.1 p.2)
    [("\\<s\\>", 0), ("\\</s\\>", 1), ("#1", 2)]
  let state2unit : List (ℕ × String) := unit2state.foldl (fun d p => dictSet d p.2 p.1) []
  match startEndUnits units state2unit group with
  | .error e => .error e
  | .ok us =>
    match addUnitArcs unit2state (fun g s => g.addArc 0 s 1) us r.1 with
    | .error e => .error e
    | .ok g1 =>
      match addUnitArcs unit2state (fun g s => g.addArc s 1 1) us g1 with
      | .error e => .error e
      | .ok g2 =>
        match addUnitArcs unit2state (fun g s => (g.addArc 2 s 1).addArc s 2 1)
            (units.map Prod.fst) g2 with
        | .error e => .error e
        | .ok g3 =>
          match g3.normalize with
          | (_, some e) => .error e
          | (g4, none) => .ok (g4, state2unit)

/-! ### mkdecodegraph -/

/-- `mkdecodegraph.py` 10-17 `get_first_emitting_state_pdf`. -/
def firstPdf [Mul F] [One F] (g : Graph F) : Except Err (Option ℕ) :=
  match g.findNext g.startState 1 with
  | .error e => .error e
  | .ok [(s, _)] => match g.pdfOf s with
    | none => .error .keyError
    | some p => .ok p
  | .ok _ => .error .valueError

/-- `mkdecodegraph.py` 20-27 `get_last_emitting_state_pdf`. -/
def lastPdf [Mul F] [One F] (g : Graph F) : Except Err (Option ℕ) :=
  match g.findPrevious g.endState 1 with
  | .error e => .error e
  | .ok [(s, _)] => match g.pdfOf s with
    | none => .error .keyError
    | some p => .ok p
  | .ok _ => .error .valueError

/-- `mkdecodegraph.py` 48-50: `replace_state` for every unit. -/
def replaceAll (phone2state : List (String × ℕ)) : List (String × Graph F) → Graph F →
    Except Err (Graph F)
  | [], g => .ok g
  | (phone, hmm) :: rest, g =>
    match dictGet phone2state phone with
    | .error e => .error e
    | .ok s =>
      match g.replaceState s hmm with
      | (_, some e) => .error e
      | (g', none) => replaceAll phone2state rest g'

/-- `mkdecodegraph.py` 56-59 entry and exit pdfs of the units. -/
def entryExit [Mul F] [One F] : List (String × Graph F) →
    List (String × Option ℕ) × List (String × Option ℕ) →
    Except Err (List (String × Option ℕ) × List (String × Option ℕ))
  | [], st => .ok st
  | (phone, hmm) :: rest, st =>
    match firstPdf hmm with
    | .error e => .error e
    | .ok s => match lastPdf hmm with
      | .error e => .error e
      | .ok l => entryExit rest (dictSet st.1 phone s, dictSet st.2 phone l)

/-- `mkdecodegraph.py` 35-63 `main`. -/
def mkdecodegraph [Field F] [DecidableEq F] (loop : Graph F × List (ℕ × String))
    (units : List (String × Graph F)) :
    Except Err (Graph F × List (String × Option ℕ) × List (String × Option ℕ)) :=
  let phone2state : List (String × ℕ) := loop.2.foldl (fun d p => dictSet d p.2 p.1) []
  match replaceAll phone2state units loop.1 with
  | .error e => .error e
  | .ok g =>
    match g.normalize with
    | (_, some e) => .error e
    | (g', none) =>
      match entryExit units ([], []) with
      | .error e => .error e
      | .ok r => .ok (g', r.1, r.2)

/-! ### mkaligraph -/

/-- `mkaligraph.py` 24-29: the states of the phones and the arcs between them; returns the graph, the
last state and the states of the phones. -/
def linearStates [One F] : ℕ → Graph F × ℕ × List ℕ → Graph F × ℕ × List ℕ
  | 0, st => st
  | n + 1, st =>
    let r := st.1.addState none
    linearStates n (r.1.addArc st.2.1 r.2 1, r.2, st.2.2 ++ [r.2])

/-- `mkaligraph.py` 19-32: the linear graph of a sequence of `n` phones and the states of the
phones. -/
def linearGraph [One F] (n : ℕ) : Graph F × List ℕ :=
  let r0 := (Graph.empty : Graph F).addState none
  let r := linearStates n ({ r0.1 with startState := some r0.2 }, r0.2, [])
  let e := r.1.addState none
  ({ (e.1.addArc r.2.1 e.2 1) with endState := some e.2 }, r.2.2)

/-- `mkaligraph.py` 35-36 replacement of the states of the phones. -/
def replaceSeq (phoneGraphs : List (String × Graph F)) : List (ℕ × String) → Graph F →
    Except Err (Graph F)
  | [], g => .ok g
  | (s, phone) :: rest, g =>
    match dictGet phoneGraphs phone with
    | .error e => .error e
    | .ok hmm =>
      match g.replaceState s hmm with
      | (_, some e) => .error e
      | (g', none) => replaceSeq phoneGraphs rest g'

/-- `mkaligraph.py` 18-37: the graph which is compiled. -/
def aliGraph [Field F] [DecidableEq F] (seq : List String) (phoneGraphs : List (String × Graph F)) :
    Except Err (Graph F) :=
  let r := (linearGraph seq.length : Graph F × List ℕ)
  match replaceSeq phoneGraphs (r.2.zip seq) r.1 with
  | .error e => .error e
  | .ok g =>
    match g.normalize with
    | (_, some e) => .error e
    | (g', none) => .ok g'

/-- `mkaligraph.py` 18-39 `create_graph_from_seq`. -/
def createGraphFromSeq [Field F] [LinearOrder F] (seq : List String)
    (phoneGraphs : List (String × Graph F)) : Except Err (Graph.Compiled F) :=
  match aliGraph seq phoneGraphs with
  | .error e => .error e
  | .ok g => g.compile

end Verif.Pipeline
