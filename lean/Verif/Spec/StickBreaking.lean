import Mathlib.Algebra.BigOperators.Group.Finset.Basic
import Mathlib.Logic.Equiv.Defs
import Mathlib.Data.Fintype.Basic
import Mathlib.Data.Real.Basic

/-!
# Specification of the stick-breaking process

`order` gives the category of each rank; `order.symm k` is the rank of category `k`.
-/

namespace Verif.Spec

open Finset

variable {K : ℕ} {R : Type} [Field R]

/-- Category `j` is broken off after category `k`. -/
def RankedAfter (order : Equiv.Perm (Fin K)) (k j : Fin K) : Prop := order.symm k < order.symm j

instance (order : Equiv.Perm (Fin K)) (k j : Fin K) : Decidable (RankedAfter order k j) :=
  inferInstanceAs (Decidable (_ < _))

/-- Total count of the categories ranked after `k`. -/
def countAfter (order : Equiv.Perm (Fin K)) (n : Fin K → R) (k : Fin K) : R :=
  ∑ j ∈ univ.filter (RankedAfter order k), n j

/-- Weight of category `k`: its share `take k` of what the categories ranked before it left over. -/
def stickWeight (order : Equiv.Perm (Fin K)) (take leave : Fin K → R) (k : Fin K) : R :=
  take k * ∏ j ∈ univ.filter (fun j => RankedAfter order j k), leave j

end Verif.Spec
