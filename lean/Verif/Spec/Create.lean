import Verif.Model.Create
import Verif.Spec.VBTrain

/-!
# Specification of the creation of models
-/

namespace Verif.VB

open Matrix

variable {D : ℕ}

/-- The covariance matrix the documentation of `create` gives to its argument: "can be specified as a
dense/diagonal matrix or a scalar". -/
def requested : CovArg D → Matrix (Fin D) (Fin D) ℝ
  | .scalar x => Matrix.of fun i j => if i = j then x else 0
  | .one x => Matrix.of fun i j => if i = j then x else 0
  | .vec v => Matrix.of fun i j => if i = j then v i else 0
  | .mat M => M

/-- The argument is a tensor with at least one dimension. -/
def CovArg.HasDim : CovArg D → Prop
  | .scalar _ => False
  | _ => True

/-- All components are the same model and all weights are equal, in the prior and in the posterior. -/
def Indistinct {X P : Type} {fam : Family X P} {K : ℕ} (st : MixState (familySet fam K)) : Prop :=
  (∀ m m' : Fin K, (st.comps : Fin K → CParam P) m = (st.comps : Fin K → CParam P) m') ∧
  (∃ a, st.weights.prior = List.replicate K a) ∧ ∃ b, st.weights.post = List.replicate K b

end Verif.VB
