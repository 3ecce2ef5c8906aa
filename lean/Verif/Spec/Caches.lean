import Verif.Model.Caches

/-!
# Modules held by a module, tidy calls
-/

namespace Verif.CacheSpec

open Verif Verif.Caches Verif.PhoneLoop

/-- `m` holds `x`: it is `x`, or one of its children holds `x`. -/
inductive Holds : Mod → Mod → Prop
  | refl (m : Mod) : Holds m m
  | child (m c x : Mod) (hc : c ∈ m.children) (h : Holds c x) : Holds m x

/-- Modules with the same identity are the same module. -/
def SameId (m : Mod) : Prop := ∀ x y, Holds m x → Holds m y → x.id = y.id → x = y

variable {n : ℕ}

/-- The call leaves nothing behind that a later call could read: it is not an evaluation of an utterance without
alignment graph outside of `evidence_lower_bound`, nor an `evidence_lower_bound` of one that raises. -/
def Tidy : Call n → Prop
  | .elbo u (some _) => u.aligned = true
  | .evaluate u => u.aligned = true
  | _ => True

end Verif.CacheSpec
