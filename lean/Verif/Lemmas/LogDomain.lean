import Verif.Model.LogDomain

namespace Verif

@[simp] lemma lexp_bot : lexp ⊥ = 0 := rfl
@[simp] lemma lexp_coe (x : ℝ) : lexp (x : LogR) = Real.exp x := rfl
@[simp] lemma lexp_zero : lexp 0 = 1 := by
  show Real.exp 0 = 1; simp

lemma lexp_nonneg (x : LogR) : 0 ≤ lexp x := by
  cases x using WithBot.recBotCoe with
  | bot => simp
  | coe x => simp [Real.exp_nonneg]

lemma lexp_pos_iff {x : LogR} : 0 < lexp x ↔ x ≠ ⊥ := by
  cases x using WithBot.recBotCoe with
  | bot => simp
  | coe x => simp [Real.exp_pos]

lemma lexp_eq_zero_iff {x : LogR} : lexp x = 0 ↔ x = ⊥ := by
  cases x using WithBot.recBotCoe with
  | bot => simp
  | coe x => simp [Real.exp_ne_zero]

lemma lexp_add (x y : LogR) : lexp (x + y) = lexp x * lexp y := by
  cases x using WithBot.recBotCoe with
  | bot => simp
  | coe x =>
    cases y using WithBot.recBotCoe with
    | bot => simp
    | coe y => rw [← WithBot.coe_add, lexp_coe, lexp_coe, lexp_coe, Real.exp_add]

lemma lexp_sum {ι : Type*} (s : Finset ι) (f : ι → LogR) :
    lexp (∑ i ∈ s, f i) = ∏ i ∈ s, lexp (f i) := by
  classical
  induction s using Finset.induction_on with
  | empty => simp
  | insert a s ha ih => simp [Finset.sum_insert ha, Finset.prod_insert ha, lexp_add, ih]

lemma lexp_llog {x : ℝ} (hx : 0 ≤ x) : lexp (llog x) = x := by
  unfold llog
  split_ifs with h
  · simp [h]
  · simp [Real.exp_log (lt_of_le_of_ne hx (Ne.symm h))]

lemma llog_lexp (x : LogR) : llog (lexp x) = x := by
  cases x using WithBot.recBotCoe with
  | bot => simp [llog]
  | coe x => simp [llog, Real.exp_ne_zero]

lemma lexp_injective : Function.Injective lexp := fun x y h => by
  rw [← llog_lexp x, ← llog_lexp y, h]

lemma llog_eq_bot_iff {x : ℝ} : llog x = ⊥ ↔ x = 0 := by
  unfold llog; split_ifs with h <;> simp [h]

lemma lexp_lse {n : ℕ} (v : Fin n → LogR) : lexp (lse v) = ∑ i, lexp (v i) :=
  lexp_llog (Finset.sum_nonneg fun _ _ => lexp_nonneg _)

lemma lexp_le_lexp {x y : LogR} : lexp x ≤ lexp y ↔ x ≤ y := by
  cases x using WithBot.recBotCoe with
  | bot => simp [lexp_nonneg]
  | coe x =>
    cases y using WithBot.recBotCoe with
    | bot => simp [Real.exp_pos]
    | coe y => simp

lemma expSub_of_ne_bot {x y : LogR} (hy : y ≠ ⊥) : expSub x y = some (lexp x / lexp y) := by
  cases y using WithBot.recBotCoe with
  | bot => exact absurd rfl hy
  | coe y =>
    cases x using WithBot.recBotCoe with
    | bot => simp [expSub]
    | coe x => simp [expSub, Real.exp_sub]

lemma expSub_bot (x : LogR) : expSub x ⊥ = none := by
  cases x using WithBot.recBotCoe <;> rfl

end Verif
