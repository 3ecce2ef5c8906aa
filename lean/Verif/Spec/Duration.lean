import Verif.Spec.DecodeCmd
import Verif.Spec.HMM

/-!
# Specification: how long the units last
-/

namespace Verif.Spec

open Verif

/-- `d u` frames at least are needed to say the unit `u`. -/
def AtLeast {F : Type} (hmms : List (String × Graph F)) (d : String → ℕ) : Prop :=
  ∀ p ∈ hmms, ∀ v, Accepts p.2 v → d p.1 ≤ v.length

/-- The arcs of a topology never jump over a state. -/
def NoSkip {F : Type} (topo : List (Arc F)) : Prop := ∀ a ∈ topo, a.stop ≤ a.start + 1

/-- The compiled HMM of a unit with `k + 1` states in a row: entered in the first one, each state is kept with
probability `a` and left for the next one with probability `b`, the utterance ending in the last one with the final
probability `f`. -/
structure Row {k : ℕ} (g : CGraph (k + 1)) (a b f : ℝ) : Prop where
  init : ∀ i, lexp (g.init i) = if i.val = 0 then 1 else 0
  trans : ∀ i j, lexp (g.trans i j) = if j.val = i.val then a else if j.val = i.val + 1 then b else 0
  final : ∀ i, lexp (g.final i) = if i.val = k then f else 0

/-- The total probability of all the ways of lasting `n + 1` frames, whatever is said in these frames. -/
noncomputable def lasting {K : ℕ} (g : CGraph K) (n : ℕ) : ℝ := evidence g (fun (_ : Fin (n + 1)) _ => 0)

end Verif.Spec

namespace Verif.Spec

open Verif

/-- The topology of a unit with `k + 1` emitting states in a row, each of them kept with weight `a` and left for the next
state with weight `b`. -/
structure RowTopo (topo : List (Arc ℝ)) (k : ℕ) (a b : ℝ) : Prop where
  valid : ValidTopo topo (k + 3)
  arcs : ∀ x ∈ topo, x.stop = x.start ∨ x.stop = x.start + 1
  keep : ∀ i, 1 ≤ i → i ≤ k + 1 → ∃ x ∈ topo, x.start = i ∧ x.stop = i ∧ x.weight = a
  next : ∀ i, 1 ≤ i → i ≤ k + 1 → ∃ x ∈ topo, x.start = i ∧ x.stop = i + 1 ∧ x.weight = b

end Verif.Spec

namespace Verif.Spec

open Verif

/-- `need s` frames at least, the one in state `s` included, are spent in a phone from state `s` on: along a transition it
decreases by one at most, phones are left and utterances end only where it is one, and different phones have different
first states. -/
structure Needs {P n : ℕ} (g : CGraph n) (starts : Fin P → Fin n) (ends : List (Fin n)) (need : Fin n → ℕ) : Prop where
  inj : Function.Injective starts
  step : ∀ a b, g.trans a b ≠ ⊥ → need a ≤ need b + 1
  leave : ∀ e ∈ ends, need e ≤ 1
  final : ∀ i, g.final i ≠ ⊥ → need i ≤ 1

end Verif.Spec
