import Verif.Model.Graph

/-!
# Specification: what is read along the paths of a graph

A path of a graph goes from a state to another along arcs; at every state visited (both ends included)
it reads a word allowed at that state by a labelling.
-/

namespace Verif.Spec

open Verif

variable {F α : Type}

/-- `Reads g lab e s w`: some path of `g` from `s` to `e` reads the word `w`. -/
inductive Reads (g : Graph F) (lab : ℕ → List α → Prop) (e : ℕ) : ℕ → List α → Prop
  | stop (w : List α) : lab e w → Reads g lab e e w
  | step (a : Arc F) (w w' : List α) : a ∈ g.arcs → lab a.start w → Reads g lab e a.stop w' →
      Reads g lab e a.start (w ++ w')

/-- An emitting state reads its pdf id, a non-emitting state nothing. -/
def emitLab (g : Graph F) (i : ℕ) (w : List ℕ) : Prop :=
  ((i, none) ∈ g.states ∧ w = []) ∨ ∃ p, (i, some p) ∈ g.states ∧ w = [p]

/-- `w` is the sequence of the pdf ids emitted along some path from the start state to the end state. -/
def Accepts (g : Graph F) (w : List ℕ) : Prop :=
  ∃ s e, g.startState = some s ∧ g.endState = some e ∧ Reads g (emitLab g) e s w

/-- `p` is the list of the states visited by some path from the start state to the end state. -/
def Visits (g : Graph F) (p : List ℕ) : Prop :=
  ∃ s e, g.startState = some s ∧ g.endState = some e ∧ Reads g (fun i w => w = [i]) e s p

/-- `p` is made of one path per unit of the sequence, in order: the path of a unit goes from its start
state to its end state, its states being numbered from `c` on in the order of the unit's HMM. -/
def Segments (units : List (String × Graph F)) : ℕ → List String → List ℕ → Prop
  | _, [], p => p = []
  | c, u :: us, p => ∃ hmm q p', (u, hmm) ∈ units ∧ Visits hmm q
      ∧ p = q.map (fun j => c + (hmm.states.map Prod.fst).idxOf j) ++ p'
      ∧ Segments units (c + hmm.states.length) us p'

/-- A well-formed HMM topology: distinct states with ids below the counter, at most one arc between two
states, arcs between states of the graph with positive weights, start and end among the states. -/
structure WellFormed [LT F] [Zero F] (g : Graph F) : Prop where
  ids_nodup : (g.states.map Prod.fst).Nodup
  ids_lt : ∀ s ∈ g.states, s.1 < g.count
  arcs_unique : g.arcs.Pairwise (fun a b => (a.start, a.stop) ≠ (b.start, b.stop))
  arcs_closed : ∀ a ∈ g.arcs, a.start ∈ g.states.map Prod.fst ∧ a.stop ∈ g.states.map Prod.fst
  weights_pos : ∀ a ∈ g.arcs, 0 < a.weight
  start_mem : ∃ s, g.startState = some s ∧ s ∈ g.states.map Prod.fst
  end_mem : ∃ e, g.endState = some e ∧ e ∈ g.states.map Prod.fst

end Verif.Spec

namespace Verif.Spec

open Verif

variable {F : Type}

/-- State `i` emits something. -/
def HasPdf (g : Graph F) (i : ℕ) : Prop := ∃ p, (i, some p) ∈ g.states

/-- Exactly one arc leaves the start state, to an emitting state. -/
def SingleEntry (g : Graph F) : Prop :=
  ∃ a ∈ g.arcs, g.startState = some a.start ∧ HasPdf g a.stop ∧ ∀ b ∈ g.arcs, b.start = a.start → b = a

/-- Exactly one arc enters the end state, from an emitting state. -/
def SingleExit (g : Graph F) : Prop :=
  ∃ a ∈ g.arcs, g.endState = some a.stop ∧ HasPdf g a.start ∧ ∀ b ∈ g.arcs, b.stop = a.stop → b = a

/-- The sequences of units a phone loop is meant to go through: any sequence of the units of the list
`(name, group)`, or when a group is given any non-empty sequence whose first and last units are in that
group. -/
def LoopSeq (units : List (String × String)) (group : Option String) (us : List String) : Prop :=
  (∀ u ∈ us, u ∈ units.map Prod.fst) ∧
  ∀ G, group = some G → (∃ a, us.head? = some a ∧ (a, G) ∈ units)
    ∧ ∃ b, us.getLast? = some b ∧ (b, G) ∈ units

end Verif.Spec

namespace Verif.Spec

open Verif

variable {F : Type}

/-- A sensible HMM topology with the states `0 … n - 1`: distinct arcs with positive weights covering all
the states, exactly one arc leaving state `0` and exactly one arc entering state `n - 1`, both ending in an
inner state. -/
structure ValidTopo [LT F] [Zero F] (topo : List (Arc F)) (n : ℕ) : Prop where
  size : 3 ≤ n
  below : ∀ a ∈ topo, a.start < n ∧ a.stop < n
  covers : ∀ i < n, ∃ a ∈ topo, a.start = i ∨ a.stop = i
  distinct : topo.Pairwise (fun a b => (a.start, a.stop) ≠ (b.start, b.stop))
  positive : ∀ a ∈ topo, 0 < a.weight
  entry : ∃ a ∈ topo, a.start = 0 ∧ 0 < a.stop ∧ a.stop < n - 1 ∧ ∀ b ∈ topo, b.start = 0 → b = a
  exit : ∃ a ∈ topo, a.stop = n - 1 ∧ 0 < a.start ∧ a.start < n - 1 ∧ ∀ b ∈ topo, b.stop = n - 1 → b = a

/-- The HMM of a unit: the topology, the first and the last states being non-emitting and the inner ones
emitting the consecutive pdfs from `first` on. -/
def unitHmm (topo : List (Arc F)) (n first : ℕ) : Graph F :=
  ⟨n, (List.range n).map (fun i => (i, if i = 0 ∨ i = n - 1 then none else some (first + (i - 1)))),
   topo, some 0, some (n - 1)⟩

end Verif.Spec
