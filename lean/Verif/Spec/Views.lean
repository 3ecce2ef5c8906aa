import Verif.Model.Views

/-!
# Specification of elements: selected positions
-/

namespace Verif.ViewsSpec

open Verif Views

/-- The positions an index selects among `n` rows, when it is in range. -/
def positions (n : ℕ) : Key → Option (List ℕ)
  | .int k => if 0 ≤ k ∧ k < n then some [k.toNat] else if k < 0 ∧ 0 ≤ k + n then some [(k + n).toNat] else none
  | .slice a b => some (List.range' a (min b n - a))
  | .list ks =>
    if ∀ k ∈ ks, -(n : ℤ) ≤ k ∧ k < n then some (ks.map fun k : ℤ => (if k < 0 then k + (n : ℤ) else k).toNat) else none

/-- The rows of a tensor. -/
def rowsOf {V : Type} : Val V → List V
  | .one v => [v]
  | .many rows => rows

/-- The root object of a reference is in the heap. -/
def InHeap (n : ℕ) : PRef → Prop
  | .own l => l < n
  | .view r _ => InHeap n r

/-- A state without dangling references. -/
def Valid {V : Type} (s : State V) : Prop := ∀ r ∈ s.dists, InHeap s.heap.length r

end Verif.ViewsSpec
