import Verif.Spec.VBTrain

/-!
# Steps which bring nothing
-/

namespace Verif.VB

variable {X : Type}

/-- Two distinct valid distributions of the family have a positive divergence. -/
def Separates {P : Type} (fam : Family X P) (V : P → Prop) : Prop :=
  ∀ p q, V p → V q → fam.kl p q = .ok 0 → p = q

/-- A step of the set which does not increase the weighted log-likelihoods minus the divergence changes no parameter, and then
no step on these rows does, whatever its learning rate. -/
def Strict {M : ℕ} (S : SetModel X M) (V : S.State → Prop) (XV : X → Prop) : Prop :=
  ∀ st rows scale l st', V st → (∀ r ∈ rows, XV r.1 ∧ ∀ m, 0 ≤ r.2 m) → 0 ≤ scale → 0 < l → l ≤ 1 →
    S.step st rows scale l = .ok st' →
    scale * (rows.map fun r => ∑ m, r.2 m * (valueOf 0 (S.llh st' r.1) m - valueOf 0 (S.llh st r.1) m)).sum ≤
      valueOf 0 (S.kl st') - valueOf 0 (S.kl st) →
    st' = st ∧ ∀ l', 0 < l' → l' ≤ 1 → S.step st rows scale l' = .ok st

end Verif.VB
