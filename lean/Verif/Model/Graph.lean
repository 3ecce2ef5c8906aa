import Verif.Model.Py
import Mathlib.Algebra.Order.Field.Basic
import Mathlib.Algebra.BigOperators.Group.List.Basic

/-!
# HMM topology graphs (`beer/graph.py:17-240`)

* `_states` is an `OrderedDict`: an association list in insertion order.
* `_arcs` is a Python set whose elements compare by `(start, end)` only (`graph.py:24-29`, the weight
  has `compare=False`): a list with at most one arc per pair.  The iteration order of a Python set
  is unspecified; the theorems are either about order-free quantities or quantify over all
  permutations of the list.
* An operation which raises may have changed the graph before: it returns the graph together with the
  exception.
* Weights are elements of a field; `symbols` and the display are not modelled.
-/

namespace Verif

/-- `graph.py:24-29`. -/
structure Arc (F : Type) where
  start : ℕ
  stop : ℕ
  weight : F
deriving DecidableEq

/-- Equality of arcs in the set (`compare=False` for the weight). -/
def Arc.sameKey {F : Type} (a b : Arc F) : Bool := a.start == b.start && a.stop == b.stop

/-- `graph.py:60-70`; `states` are the pairs (id, pdf id). -/
structure Graph (F : Type) where
  count : ℕ
  states : List (ℕ × Option ℕ)
  arcs : List (Arc F)
  startState : Option ℕ
  endState : Option ℕ

namespace Graph

variable {F : Type}

/-- `Graph()`. -/
def empty : Graph F := ⟨0, [], [], none, none⟩

/-- `graph.py:75-77` `states()`. -/
def ids (g : Graph F) : List ℕ := g.states.map Prod.fst

/-- `graph.py:82-101` `arcs(state_id)`: without a state id, all the arcs. -/
def arcsFrom (g : Graph F) : Option ℕ → List (Arc F)
  | none => g.arcs
  | some s => g.arcs.filter (fun a => a.start = s)

/-- `graph.py:82-101` `arcs(state_id, incoming=True)`. -/
def arcsTo (g : Graph F) : Option ℕ → List (Arc F)
  | none => g.arcs
  | some s => g.arcs.filter (fun a => a.stop = s)

/-- `graph.py:103-108` `add_state` (the new id is the counter). -/
def addState (g : Graph F) (pdf : Option ℕ) : Graph F × ℕ :=
  ({ g with count := g.count + 1, states := g.states ++ [(g.count, pdf)] }, g.count)

/-- `graph.py:110-113` `add_arc`: adding an element equal to one of the set is a no-op. -/
def addArc (g : Graph F) (s e : ℕ) (w : F) : Graph F :=
  if g.arcs.any (fun a => a.sameKey ⟨s, e, w⟩) then g
  else { g with arcs := g.arcs ++ [⟨s, e, w⟩] }

/-! ### normalize -/

/-- `graph.py:117-121` the body of the loop for one state. -/
def normalizeState [Field F] [DecidableEq F] (g : Graph F) (s : ℕ) : Except Err (Graph F) :=
  let tot := ((g.arcsFrom (some s)).map (·.weight)).sum
  if (g.arcsFrom (some s)) ≠ [] ∧ tot = 0 then .error .zeroDivision
  else
    let f : Arc F → Arc F := fun a => if a.start = s then { a with weight := a.weight / tot } else a
    .ok { g with arcs := g.arcs.map f }

/-- `graph.py:115-121` the loop over the states. -/
def normalizeLoop [Field F] [DecidableEq F] : List ℕ → Graph F → Graph F × Option Err
  | [], g => (g, none)
  | s :: ss, g =>
    match normalizeState g s with
    | .error e => (g, some e)
    | .ok g' => normalizeLoop ss g'

/-- `graph.py:115-121` `normalize`. -/
def normalize [Field F] [DecidableEq F] (g : Graph F) : Graph F × Option Err :=
  normalizeLoop g.ids g

/-! ### replace_state -/

/-- `graph.py:127-131` copy of the states; returns the dictionary `new_states`. -/
def copyStates (g : Graph F) : List (ℕ × Option ℕ) → Graph F × List (ℕ × ℕ)
  | [] => (g, [])
  | (i, pdf) :: ss =>
    let r := g.addState pdf
    let r' := copyStates r.1 ss
    (r'.1, (i, r.2) :: r'.2)

/-- Lookup in `new_states` (`KeyError` is `none`; a `None` key is never present). -/
def newId (m : List (ℕ × ℕ)) : Option ℕ → Option ℕ
  | none => none
  | some i => m.lookup i

/-- `graph.py:133-135` copy of the arcs. -/
def copyArcs (m : List (ℕ × ℕ)) : List (Arc F) → Graph F → Graph F × Option Err
  | [], g => (g, none)
  | a :: as, g =>
    match newId m (some a.start), newId m (some a.stop) with
    | some s, some e => copyArcs m as (g.addArc s e a.weight)
    | _, _ => (g, some .keyError)

/-- `graph.py:140-142` redirection of the outgoing arcs. -/
def redirectOut (newEnd : Option ℕ) : List (Arc F) → Except Err (List (Arc F))
  | [] => .ok []
  | a :: as =>
    match newEnd with
    | none => .error .keyError
    | some e => match redirectOut newEnd as with
      | .error e => .error e
      | .ok l => .ok (⟨e, a.stop, a.weight⟩ :: l)

/-- `graph.py:143-145` redirection of the incoming arcs. -/
def redirectIn (newStart : Option ℕ) : List (Arc F) → Except Err (List (Arc F))
  | [] => .ok []
  | a :: as =>
    match newStart with
    | none => .error .keyError
    | some s => match redirectIn newStart as with
      | .error e => .error e
      | .ok l => .ok (⟨a.start, s, a.weight⟩ :: l)

/-- `graph.py:147-149`. -/
def addArcs (g : Graph F) (l : List (Arc F)) : Graph F :=
  l.foldl (fun g a => g.addArc a.start a.stop a.weight) g

/-- `graph.py:151-153` `set.remove` raises `KeyError` when the arc is not (any more) in the set. -/
def removeArcs : List (Arc F) → Graph F → Graph F × Option Err
  | [], g => (g, none)
  | a :: as, g =>
    if g.arcs.any (fun b => b.sameKey a) then
      removeArcs as { g with arcs := g.arcs.filter (fun b => !b.sameKey a) }
    else (g, some .keyError)

/-- `graph.py:123-154` `replace_state`. -/
def replaceState (g : Graph F) (old : ℕ) (sub : Graph F) : Graph F × Option Err :=
  let r1 := g.copyStates sub.states
  let m := r1.2
  match copyArcs m sub.arcs r1.1 with
  | (g2, some e) => (g2, some e)
  | (g2, none) =>
    let outs := g2.arcsFrom (some old)
    let ins := g2.arcsTo (some old)
    match redirectOut (newId m sub.endState) outs with
    | .error e => (g2, some e)
    | .ok newOut =>
      match redirectIn (newId m sub.startState) ins with
      | .error e => (g2, some e)
      | .ok newIn =>
        match removeArcs (outs ++ ins) (g2.addArcs (newOut ++ newIn)) with
        | (g3, some e) => (g3, some e)
        | (g3, none) =>
          if old ∈ g3.ids then
            ({ g3 with states := g3.states.filter (fun s => s.1 ≠ old) }, none)
          else (g3, some .keyError)

/-! ### Search of the emitting states -/

/-- `self._states[i].pdf_id`; the outer `none` is a `KeyError`. -/
def pdfOf (g : Graph F) (i : ℕ) : Option (Option ℕ) := g.states.lookup i

/-- Arcs of the graph whose start is not visited (measure of the search). -/
def unvisited (g : Graph F) (visited : List ℕ) : List (Arc F) :=
  g.arcs.filter (fun a => a.start ∉ visited)

theorem unvisited_cons (g : Graph F) (visited : List ℕ) (s : ℕ) (hs : s ∉ visited) :
    (g.unvisited visited).length
      = (g.unvisited (s :: visited)).length + (g.arcsFrom (some s)).length := by
  simp only [unvisited, arcsFrom]
  induction g.arcs with
  | nil => rfl
  | cons a as ih =>
    by_cases h : a.start = s
    · have h1 : a.start ∉ visited := by rw [h]; exact hs
      simp [h, hs] at ih ⊢
      omega
    · by_cases h1 : a.start ∈ visited
      · simp [h, h1] at ih ⊢
        omega
      · simp [h, h1] at ih ⊢
        omega

/-- `graph.py:159-168` the loop of `find_next_pdf_ids`; the head of the list is the top of the stack
(`pop()` takes the last element, so the new entries are stacked in reverse order).

In the list comprehension `[(arc, arc.weight * weight) for arc in self.arcs(arc.end)]` (line 166) the
`arc` of `arc.weight` is the *new* arc, the loop variable of the comprehension, and not the arc just
taken from the stack. -/
def nextLoop [Mul F] (g : Graph F) (stack : List (Arc F × F)) (visited : List ℕ) :
    Except Err (List (ℕ × F)) :=
  match stack with
  | [] => .ok []
  | (arc, weight) :: rest =>
    match g.pdfOf arc.stop with
    | none => .error .keyError
    | some (some _) =>
      match nextLoop g rest visited with
      | .error e => .error e
      | .ok l => .ok ((arc.stop, weight * arc.weight) :: l)
    | some none =>
      if _h : arc.stop ∉ visited then
        nextLoop g ((((g.arcsFrom (some arc.stop)).map (fun a => (a, a.weight * weight))).reverse) ++ rest)
          (arc.stop :: visited)
      else nextLoop g rest visited
termination_by stack.length + (g.unvisited visited).length
decreasing_by
  · simp
  · have := g.unvisited_cons visited arc.stop _h
    simp; omega
  · simp

/-- `graph.py:156-168` `find_next_pdf_ids`. With a `None` state all the arcs are explored and `None` is
the visited state. -/
def findNext [Mul F] (g : Graph F) (s : Option ℕ) (w : F) : Except Err (List (ℕ × F)) :=
  g.nextLoop ((g.arcsFrom s).map (fun a => (a, w))).reverse s.toList

/-- The graph with all its arcs reversed. -/
def reversed (g : Graph F) : Graph F :=
  { g with arcs := g.arcs.map (fun a => ⟨a.stop, a.start, a.weight⟩)
           startState := g.endState, endState := g.startState }

/-- `graph.py:170-183` `find_previous_pdf_ids`: line by line the search of `find_next_pdf_ids` with the
two ends of every arc exchanged. -/
def findPrevious [Mul F] (g : Graph F) (s : Option ℕ) (w : F) : Except Err (List (ℕ × F)) :=
  g.reversed.findNext s w

/-! ### compile -/

/-- `graph.py:192-196` ids of the emitting states in insertion order; the index of a state in this list
is its number in the compiled graph (`state2pdf_id`). -/
def emitting (g : Graph F) : List ℕ := g.states.filterMap (fun s => s.2.map (fun _ => s.1))

/-- `graph.py:190-195` `pdf_id_mapping`. -/
def pdfMapping (g : Graph F) : List ℕ := g.states.filterMap Prod.snd

/-- `state2pdf_id[state_id]`. -/
def stateIndex (g : Graph F) (i : ℕ) : ℕ := g.emitting.idxOf i

/-- `for state_id, weight in ...: probs[state2pdf_id[state_id]] += weight`. -/
def accumProbs [Add F] (g : Graph F) (v : ℕ → F) (l : List (ℕ × F)) : ℕ → F :=
  l.foldl (fun v p => fun k => if k = g.stateIndex p.1 then v k + p.2 else v k) v

/-- `graph.py:205,210` division of a vector of size `n` by its sum; `none` stands for the vector of NaN
obtained when the sum is zero. -/
def normalizeVec [Field F] [DecidableEq F] (n : ℕ) (v : ℕ → F) : Option (ℕ → F) :=
  let tot := ((List.range n).map v).sum
  if tot = 0 then none else some (fun k => v k / tot)

/-- `graph.py:213-228` one iteration of the loop filling the transition matrix. -/
def transArc [Semiring F] (g : Graph F) (t : ℕ → ℕ → F) (a : Arc F) : Except Err (ℕ → ℕ → F) :=
  match g.pdfOf a.start, g.pdfOf a.stop with
  | some p1, some p2 =>
    match p1 with
    | none => .ok t
    | some _ =>
      match p2 with
      | none =>
        match g.findNext (some a.stop) a.weight with
        | .error e => .error e
        | .ok l => .ok (fun i => if i = g.stateIndex a.start then g.accumProbs (t i) l else t i)
      | some _ => .ok (fun i => if i = g.stateIndex a.start
                        then g.accumProbs (t i) [(a.stop, a.weight)] else t i)
  | _, _ => .error .keyError

/-- `graph.py:213-228`. -/
def transRaw [Semiring F] (g : Graph F) : Except Err (ℕ → ℕ → F) :=
  g.arcs.foldlM (fun t a => g.transArc t a) (fun _ _ => 0)

/-- `graph.py:231-237` normalisation of a row of size `n` without changing its diagonal (each iteration
only reads and writes its own row). For `diag = 1` torch divides by infinity, which gives zero like
the division by zero of Lean. -/
def normalizeRow [Field F] [LinearOrder F] (n : ℕ) (row : ℕ → F) (dim : ℕ) : ℕ → F :=
  let diag := row dim
  let off := ((List.range n).map row).sum - diag
  if 0 < diag ∧ 0 < off then
    fun k => if k = dim then diag else row k / (off / (1 - diag))
  else row

/-- Probabilities of a compiled graph (before taking the logarithm); `none` is NaN. -/
structure Compiled (F : Type) where
  init : Option (ℕ → F)
  final : Option (ℕ → F)
  trans : ℕ → ℕ → F
  pdfMapping : List ℕ

/-- `graph.py:185-240` `compile`. -/
def compile [Field F] [LinearOrder F] (g : Graph F) : Except Err (Compiled F) :=
  let n := g.emitting.length
  match g.findNext g.startState 1 with
  | .error e => .error e
  | .ok li =>
    match g.findPrevious g.endState 1 with
    | .error e => .error e
    | .ok lf =>
      match g.transRaw with
      | .error e => .error e
      | .ok t => .ok
        { init := normalizeVec n (g.accumProbs (fun _ => 0) li)
          final := normalizeVec n (g.accumProbs (fun _ => 0) lf)
          trans := fun i => normalizeRow n (t i) i
          pdfMapping := g.pdfMapping }

end Graph

end Verif
