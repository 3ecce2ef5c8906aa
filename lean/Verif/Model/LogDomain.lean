import Mathlib.Analysis.SpecialFunctions.Log.Basic
import Mathlib.Algebra.Order.Monoid.WithTop
import Mathlib.Algebra.BigOperators.Fin

/-!
# Log-domain numbers

A log-probability is a real number or `-inf` (`⊥`): `WithBot ℝ`.  Its addition is the float
addition of the code (`-inf + x = -inf`).  `+inf` and NaN are not values of this type; the places
where the code can produce a NaN (`-inf - -inf`) use `expSub`, which returns `none` for NaN.
-/

namespace Verif

/-- Log-domain number: a real or `-inf`. -/
abbrev LogR := WithBot ℝ

/-- `torch.exp` on a log-domain number (`exp(-inf) = 0`). -/
noncomputable def lexp : LogR → ℝ
  | ⊥ => 0
  | (x : ℝ) => Real.exp x

/-- `torch.log` on a non-negative number (`log 0 = -inf`). -/
noncomputable def llog (x : ℝ) : LogR := if x = 0 then ⊥ else ((Real.log x : ℝ) : LogR)

/-- `torch.logsumexp` of a vector (`-inf` when all entries are `-inf`). -/
noncomputable def lse {n : ℕ} (v : Fin n → LogR) : LogR := llog (∑ i, lexp (v i))

/-- `(x - y).exp()` on log-domain numbers; `none` is NaN (`-inf - -inf`); a finite `x` minus
`-inf` would be `+inf`, also outside the modelled numbers. -/
noncomputable def expSub : LogR → LogR → Option ℝ
  | _, ⊥ => none
  | ⊥, (_ : ℝ) => some 0
  | (x : ℝ), (y : ℝ) => some (Real.exp (x - y))

end Verif
