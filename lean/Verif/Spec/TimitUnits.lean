import Verif.Model.TimitUnits
import Verif.Spec.GraphLang

/-!
# Specification of the units of the old TIMIT recipe
-/

namespace Verif.Spec

open Verif Verif.TimitUnits

variable {F : Type}

/-- The weights of a topology divided by their sums: those of the arcs leaving one of the `n` states. -/
def normTopo [Field F] (n : ℕ) (topo : List (Arc F)) : List (Arc F) :=
  topo.map fun a => if a.start < n
    then ⟨a.start, a.stop, a.weight / ((topo.filter fun b => b.start = a.start).map (·.weight)).sum⟩ else a

/-- The units of the phones: `shapes` are the number of states and the topology for each unit, `first` the first density. -/
def phoneUnits [Field F] : List (ℕ × List (Arc F)) → List String → ℕ → List (String × Graph F)
  | (n, topo) :: ss, p :: ps, first => (p, unitHmm (normTopo n topo) n first) :: phoneUnits ss ps (first + (n - 2))
  | _, _, _ => []

/-- A list of arcs with distinct ends and positive weights. -/
def GoodArcs [LT F] [Zero F] (topo : List (Arc F)) : Prop :=
  topo.Pairwise (fun a b => (a.start, a.stop) ≠ (b.start, b.stop)) ∧ ∀ a ∈ topo, 0 < a.weight

/-- The shapes of the units of the groups, in order. -/
def shapes (conf : List (TGroup F)) : List (ℕ × List (Arc F)) :=
  conf.flatMap fun g => List.replicate g.nUnits (g.nStates, g.topo)

/-- A group the script accepts. -/
structure GoodGroup [LT F] [Zero F] (g : TGroup F) : Prop where
  units : 0 < g.nUnits
  states : 3 ≤ g.nStates
  arcs : GoodArcs g.topo
  gmm : g.emission = some "GMM"

end Verif.Spec
