import Verif.Model.Inference
import Mathlib.Algebra.BigOperators.Group.List.Basic

/-!
# Specification of the objective sums

What the sum of a collection of objectives should be, without reference to the order in which they
are added.
-/

namespace Verif.Spec

open Verif

variable {F V : Type}

/-- The sum of the entries which are present; absent if none is. -/
def optSum [AddCommMonoid V] (l : List (Option V)) : Option V :=
  if ∃ o ∈ l, o.isSome then some ((l.map (fun o => o.getD 0)).sum) else none

/-- Sum of all the objectives of a collection over a data set of size `ds`. -/
def total [Field F] [AddCommMonoid V] (ds : ℤ) (es : List (Elbo F V)) : Elbo F V where
  value := (es.map (·.value)).sum
  isTensor := es.any (·.isTensor)
  acc := fun k => optSum (es.map (fun e => e.acc k))
  params := es.foldr (fun e s => e.params ∪ s) ∅
  mb := (es.map (·.mb)).sum
  datasize := ds

/-- Statistics of a conjugate model: the sum over the frames of per-frame statistics `T k x` for each
of its parameters. -/
def conjAcc {X : Type} [AddCommMonoid V] (params : Finset ℕ) (T : ℕ → X → V) (xs : List X) : Acc V :=
  fun k => if k ∈ params then some ((xs.map (T k)).sum) else none

end Verif.Spec
