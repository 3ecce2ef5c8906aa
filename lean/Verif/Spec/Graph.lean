import Verif.Model.Graph

/-!
# Specification of the compilation of graphs

Paths of a graph whose inner states are non-emitting, as lists of arcs.
-/

namespace Verif.Spec

open Verif

variable {F : Type}

/-- State `i` exists and emits. -/
def Emits (g : Graph F) (i : ℕ) : Prop := ∃ p, (i, some p) ∈ g.states

/-- State `i` exists and does not emit. -/
def Silent (g : Graph F) (i : ℕ) : Prop := (i, none) ∈ g.states

/-- The list of arcs `p` is a path from `s` to the emitting state `e` going through non-emitting
states only. -/
inductive EpsPath (g : Graph F) (e : ℕ) : ℕ → List (Arc F) → Prop
  | last (a : Arc F) : a ∈ g.arcs → a.stop = e → Emits g e → EpsPath g e a.start [a]
  | step (a : Arc F) (p : List (Arc F)) : a ∈ g.arcs → Silent g a.stop → EpsPath g e a.stop p →
      EpsPath g e a.start (a :: p)

/-- The list of arcs `p` leads from the non-emitting state `s` to the non-emitting state `e` through
non-emitting states only. -/
inductive SilentPath (g : Graph F) (e : ℕ) : ℕ → List (Arc F) → Prop
  | nil : Silent g e → SilentPath g e e []
  | step (a : Arc F) (p : List (Arc F)) : a ∈ g.arcs → Silent g a.start → SilentPath g e a.stop p →
      SilentPath g e a.start (a :: p)

/-- The list of arcs `p` (last arc first) is a path from the emitting state `e` to `s` going through
non-emitting states only. -/
inductive EpsPathTo (g : Graph F) (e : ℕ) : ℕ → List (Arc F) → Prop
  | first (a : Arc F) : a ∈ g.arcs → a.start = e → Emits g e → EpsPathTo g e a.stop [a]
  | step (a : Arc F) (p : List (Arc F)) : a ∈ g.arcs → Silent g a.start → EpsPathTo g e a.start p →
      EpsPathTo g e a.stop (a :: p)

/-- Weight of a path: the product of the weights of its arcs. -/
def arcsWeight [Semiring F] (p : List (Arc F)) : F := (p.map Arc.weight).prod

/-- Every arc connects two states of the graph. -/
def Closed (g : Graph F) : Prop := ∀ a ∈ g.arcs, a.start ∈ g.ids ∧ a.stop ∈ g.ids

/-- No two different paths connect the same two non-emitting states (through non-emitting states). -/
def UniqueSilent (g : Graph F) : Prop :=
  ∀ s e p q, SilentPath g e s p → SilentPath g e s q → p = q

/-- A probability vector of size `n`. -/
def IsDistribution [Field F] [LinearOrder F] (n : ℕ) (v : ℕ → F) : Prop :=
  (∀ k < n, 0 ≤ v k) ∧ ((List.range n).map v).sum = 1

end Verif.Spec
