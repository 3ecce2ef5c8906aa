import Verif.Spec.Graph
import Verif.Spec.GraphLang

/-!
# Specification: the paths of a compiled graph
-/

namespace Verif.Spec

open Verif

variable {F : Type}

/-- `q` is a non-empty sequence of states of the compiled graph which has a non-zero probability: of beginning in its
first state, of every transition, of ending in its last state. -/
def Goes [Zero F] [LT F] (c : Graph.Compiled F) (q : List ℕ) : Prop :=
  ∃ i f, c.init = some i ∧ c.final = some f ∧ (∀ k ∈ q, k < c.pdfMapping.length) ∧
    (∃ a, q.head? = some a ∧ 0 < i a) ∧ q.IsChain (fun a b => 0 < c.trans a b) ∧ ∃ b, q.getLast? = some b ∧ 0 < f b

/-- `w` are the pdf ids along such a sequence. -/
def Spells [Zero F] [LT F] (c : Graph.Compiled F) (w : List ℕ) : Prop :=
  ∃ q, Goes c q ∧ w = q.map fun k => c.pdfMapping.getD k 0

/-- The probabilities of a compiled graph are not negative. -/
def Nonneg [Zero F] [LE F] (c : Graph.Compiled F) : Prop :=
  (∀ v, c.init = some v → ∀ k < c.pdfMapping.length, 0 ≤ v k) ∧
  (∀ v, c.final = some v → ∀ k < c.pdfMapping.length, 0 ≤ v k) ∧
  ∀ a < c.pdfMapping.length, ∀ b < c.pdfMapping.length, 0 ≤ c.trans a b

/-- The weights of the arcs leaving a state sum to one. -/
def OutSums [One F] [Add F] [Zero F] (g : Graph F) : Prop :=
  ∀ a ∈ g.arcs, ((g.arcs.filter fun b => b.start = a.start).map Arc.weight).sum = 1

/-- Arc `b` ends in an emitting state or in a state which has a way out. -/
def LeadsOn (g : Graph F) (b : Arc F) : Prop := Emits g b.stop ∨ ∃ d ∈ g.arcs, d.start = b.stop

/-- Silent states entered from emitting states lead to emitting states only, or have at most one way out which leads
on. -/
def Direct (g : Graph F) : Prop :=
  ∀ a ∈ g.arcs, Emits g a.start → Silent g a.stop →
    (∀ b ∈ g.arcs, b.start = a.stop → Emits g b.stop) ∨
    ∀ b ∈ g.arcs, ∀ c ∈ g.arcs, b.start = a.stop → c.start = a.stop → LeadsOn g b → LeadsOn g c → b = c

/-- An HMM which can be left only by its last state: the last state is silent and has no arcs, the other silent states
entered from emitting states have a single way out. -/
structure Ends (g : Graph F) : Prop where
  silent : ∀ e, g.endState = some e → Silent g e
  last : ∀ e, g.endState = some e → ∀ a ∈ g.arcs, a.start ≠ e
  inner : ∀ a ∈ g.arcs, Emits g a.start → Silent g a.stop → g.endState = some a.stop ∨
    ∀ b ∈ g.arcs, ∀ c ∈ g.arcs, b.start = a.stop → c.start = a.stop → b = c

end Verif.Spec
