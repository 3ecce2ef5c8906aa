import Verif.Model.SBTrain
import Verif.Spec.VBTrain
import Verif.Spec.StickBreaking

/-!
# Specification of the training of stick-breaking weights
-/

namespace Verif.VB

variable {K : ℕ}

/-- The sort returns the categories by decreasing count, whatever the counts. -/
def SortLaw (sort : (Fin K → ℝ) → Equiv.Perm (Fin K)) : Prop := ∀ n, SortsDesc n (sort n)

/-- Valid sticks. -/
structure SticksValid (s : SBCat K) : Prop where
  prior : ∀ k, 0 < (s.prior k).1 ∧ 0 < (s.prior k).2
  post : ∀ k, 0 < (s.post k).1 ∧ 0 < (s.post k).2

/-- The prior of a truncated stick-breaking process: every stick is `Beta(1, strength)`. -/
def StickPrior (strength : ℝ) (s : SBCat K) : Prop := ∀ k, s.prior k = (1, strength)

end Verif.VB
