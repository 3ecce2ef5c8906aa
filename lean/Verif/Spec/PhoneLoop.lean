import Verif.Spec.HMM
import Mathlib.Data.List.Basic

/-!
# Specification of the phone loop: entering a phone along a state sequence
-/

namespace Verif.Spec

variable {n m : ℕ}

/-- Number of times the state sequence `p` enters the phone whose first state is `s`: it starts in
`s`, or goes from the last state of a phone to `s`. -/
def entries (ends : List (Fin n)) (s : Fin n) (p : Fin (m + 1) → Fin n) : ℕ :=
  (if p 0 = s then 1 else 0)
    + (Finset.univ.filter fun t : Fin m => p t.castSucc ∈ ends ∧ p t.succ = s).card

end Verif.Spec
