import Verif.Model.Jacobian

/-!
# Specification of Jacobian matrices
-/

namespace Verif.JacobianSpec

open Verif Jacobian

variable {K : Type} [Field K] {m : ℕ} {size : Fin m → ℕ}

/-- The gradient of an output, zero with respect to the inputs it does not depend on. -/
def gradient (out : (j : Fin m) → Grad K (size j)) : (j : Fin m) → Fin (size j) → K := fun j => (out j).getD 0

end Verif.JacobianSpec
