import Verif.Model.StickBreaking
import Verif.Spec.StickBreaking
import Verif.Lemmas.Digamma
import Mathlib.Algebra.BigOperators.Ring.Finset
import Mathlib.Data.Fintype.Perm
import Mathlib.Order.Fin.Basic
import Mathlib.Algebra.Order.BigOperators.Ring.Finset
import Mathlib.Tactic

/-!
# Helper lemmas on stick breaking
-/

namespace Verif

open Finset Verif.Dists Verif.Spec

variable {K : ℕ} {R : Type} [Field R]

theorem foldl_update_notMem {K : ℕ} (σ : Equiv.Perm (Fin K)) (l : List (Fin K))
    (r : Fin K → Fin K) (i : Fin K) (h : i ∉ l) :
    l.foldl (fun r i => Function.update r (σ i) i) r (σ i) = r (σ i) := by
  induction l generalizing r with
  | nil => rfl
  | cons a l ih =>
    rw [List.foldl_cons, ih _ (fun h' => h (List.mem_cons_of_mem _ h'))]
    apply Function.update_of_ne
    intro h'
    exact h (by rw [σ.injective h']; exact List.mem_cons_self)

theorem foldl_update_mem {K : ℕ} (σ : Equiv.Perm (Fin K)) (l : List (Fin K)) (hl : l.Nodup)
    (r : Fin K → Fin K) (i : Fin K) (h : i ∈ l) :
    l.foldl (fun r i => Function.update r (σ i) i) r (σ i) = i := by
  induction l generalizing r with
  | nil => simp at h
  | cons a l ih =>
    rw [List.nodup_cons] at hl
    rw [List.foldl_cons]
    by_cases hi : i ∈ l
    · exact ih hl.2 _ hi
    · have : i = a := by simpa [hi] using h
      subst this
      rw [foldl_update_notMem σ l _ i hi, Function.update_self]

theorem reverseOrdering_eq [NeZero K] (σ : Equiv.Perm (Fin K)) : reverseOrdering σ = σ.symm := by
  funext k
  have := foldl_update_mem σ (List.finRange K) (List.nodup_finRange K) (fun _ => 0) (σ.symm k)
    (List.mem_finRange _)
  rw [Equiv.apply_symm_apply] at this
  exact this

theorem flip_cumsum_flip (x : Fin K → R) (i : Fin K) :
    flip0 (cumsum (flip0 x)) i = ∑ j ∈ univ.filter (i ≤ ·), x j := by
  unfold flip0 cumsum
  refine Finset.sum_nbij' Fin.rev Fin.rev ?_ ?_ ?_ ?_ ?_ <;> simp [Fin.le_rev_iff, Fin.rev_le_iff]

theorem sum_shiftUp (x : Fin K → R) (i : Fin K) :
    ∑ j ∈ univ.filter (i ≤ ·), shiftUp x j = ∑ j ∈ univ.filter (i < ·), x j := by
  rw [← Finset.sum_filter_add_sum_filter_not (univ.filter (i ≤ ·)) (fun j => j.val + 1 < K)]
  have h0 : ∑ j ∈ (univ.filter (i ≤ ·)).filter (fun j => ¬ j.val + 1 < K), shiftUp x j = 0 := by
    apply Finset.sum_eq_zero
    intro j hj
    rw [Finset.mem_filter] at hj
    unfold shiftUp
    rw [dif_neg hj.2]
  rw [h0, add_zero]
  refine Finset.sum_bij (fun j hj => ⟨j.val + 1, (Finset.mem_filter.1 hj).2⟩) ?_ ?_ ?_ ?_
  · intro j hj
    simp only [Finset.mem_filter, Finset.mem_univ, true_and, Fin.le_def, Fin.lt_def] at hj ⊢
    omega
  · intro a ha b hb hab
    simp only [Fin.mk.injEq] at hab
    exact Fin.ext (by omega)
  · intro b hb
    simp only [Finset.mem_filter, Finset.mem_univ, true_and, Fin.lt_def] at hb
    refine ⟨⟨b.val - 1, by omega⟩, ?_, ?_⟩
    · simp only [Finset.mem_filter, Finset.mem_univ, true_and, Fin.le_def]
      omega
    · exact Fin.ext (by simp only []; omega)
  · intro j hj
    unfold shiftUp
    rw [dif_pos (Finset.mem_filter.1 hj).2]

theorem cumprod_pred (x : Fin K → R) (i : Fin K) (h : 0 < i.val) :
    cumprod x ⟨i.val - 1, by omega⟩ = ∏ j ∈ univ.filter (· < i), x j := by
  unfold cumprod
  congr 1
  ext j
  simp only [Finset.mem_filter, Finset.mem_univ, true_and, Fin.le_def, Fin.lt_def]
  omega

theorem cumsum_pred (x : Fin K → R) (i : Fin K) (h : 0 < i.val) :
    cumsum x ⟨i.val - 1, by omega⟩ = ∑ j ∈ univ.filter (· < i), x j := by
  unfold cumsum
  congr 1
  ext j
  simp only [Finset.mem_filter, Finset.mem_univ, true_and, Fin.le_def, Fin.lt_def]
  omega

theorem filter_lt_zero (i : Fin K) (h : ¬ 0 < i.val) : univ.filter (· < i) = ∅ := by
  ext j
  simp only [Finset.mem_filter, Finset.mem_univ, true_and, Fin.lt_def, Finset.notMem_empty,
    iff_false]
  omega

theorem onTail_mul_cumprod (v u : Fin K → R) (i : Fin K) :
    onTail (· * ·) v (cumprod u) i = v i * ∏ j ∈ univ.filter (· < i), u j := by
  unfold onTail
  by_cases h : 0 < i.val
  · rw [dif_pos h, cumprod_pred u i h]
  · rw [dif_neg h, filter_lt_zero i h, Finset.prod_empty, mul_one]

theorem onTail_add_cumsum (v u : Fin K → R) (i : Fin K) :
    onTail (· + ·) v (cumsum u) i = v i + ∑ j ∈ univ.filter (· < i), u j := by
  unfold onTail
  by_cases h : 0 < i.val
  · rw [dif_pos h, cumsum_pred u i h]
  · rw [dif_neg h, filter_lt_zero i h, Finset.sum_empty, add_zero]

/-- Products over lower ranks are products over the categories ranked before. -/
theorem prod_lower_rank (σ : Equiv.Perm (Fin K)) (u : Fin K → R) (k : Fin K) :
    ∏ j ∈ univ.filter (· < σ.symm k), u (σ j)
      = ∏ j ∈ univ.filter (fun j => RankedAfter σ j k), u j := by
  refine Finset.prod_nbij' σ σ.symm ?_ ?_ (by simp) (by simp) (by simp)
  · intro a ha
    rw [Finset.mem_filter] at ha ⊢
    exact ⟨Finset.mem_univ _, by simpa only [RankedAfter, Equiv.symm_apply_apply] using ha.2⟩
  · intro a ha
    rw [Finset.mem_filter] at ha ⊢
    exact ⟨Finset.mem_univ _, ha.2⟩

theorem sum_higher_rank (σ : Equiv.Perm (Fin K)) (u : Fin K → R) (k : Fin K) :
    ∑ j ∈ univ.filter (σ.symm k < ·), u (σ j)
      = ∑ j ∈ univ.filter (RankedAfter σ k), u j := by
  refine Finset.sum_nbij' σ σ.symm ?_ ?_ (by simp) (by simp) (by simp)
  · intro a ha
    rw [Finset.mem_filter] at ha ⊢
    exact ⟨Finset.mem_univ _, by simpa only [RankedAfter, Equiv.symm_apply_apply] using ha.2⟩
  · intro a ha
    rw [Finset.mem_filter] at ha ⊢
    exact ⟨Finset.mem_univ _, ha.2⟩

/-- The telescoping sum of the stick-breaking weights. -/
theorem sum_stickWeight (σ : Equiv.Perm (Fin K)) (leave : Fin K → R) :
    ∑ k, stickWeight σ (fun k => 1 - leave k) leave k = 1 - ∏ k, leave k := by
  have h := Finset.prod_one_sub_ordered (univ : Finset (Fin K)) (fun i => 1 - leave (σ i))
  simp only [sub_sub_cancel] at h
  rw [← Equiv.sum_comp σ, ← Equiv.prod_comp σ, h, sub_sub_cancel]
  apply Finset.sum_congr rfl
  intro i _
  unfold stickWeight
  rw [← prod_lower_rank σ leave (σ i), Equiv.symm_apply_apply]

theorem stickWeight_nonneg (σ : Equiv.Perm (Fin K)) (take leave : Fin K → ℝ)
    (h1 : ∀ k, 0 ≤ take k) (h2 : ∀ k, 0 ≤ leave k) (k : Fin K) : 0 ≤ stickWeight σ take leave k :=
  mul_nonneg (h1 k) (Finset.prod_nonneg fun j _ => h2 j)

theorem sum_stickWeight_le (σ : Equiv.Perm (Fin K)) (take leave : Fin K → ℝ)
    (h1 : ∀ k, take k ≤ 1 - leave k) (h2 : ∀ k, 0 ≤ leave k) :
    ∑ k, stickWeight σ take leave k ≤ 1 - ∏ k, leave k := by
  rw [← sum_stickWeight σ leave]
  apply Finset.sum_le_sum
  intro k _
  exact mul_le_mul_of_nonneg_right (h1 k) (Finset.prod_nonneg fun j _ => h2 j)

theorem sbMean_eq [NeZero K] (eps : R) (σ : Equiv.Perm (Fin K)) (c : Fin K → R × R) (k : Fin K) :
    sbMean eps σ c k = stickWeight σ (fun k => (c k).1 / ((c k).1 + (c k).2 + eps))
      (fun k => (c k).2 / ((c k).1 + (c k).2 + eps)) k := by
  unfold sbMean
  dsimp only
  rw [reverseOrdering_eq, onTail_mul_cumprod,
    prod_lower_rank σ (fun k => (c k).2 / ((c k).1 + (c k).2 + eps)) k, Equiv.apply_symm_apply]
  rfl

/-! ## One stick -/

theorem betaNatural_eq (a b : R) : dirNatural [a, b] = [(betaNatural (a, b)).1, (betaNatural (a, b)).2] := by
  simp [dirNatural, betaNatural]

theorem betaFromNatural_eq (a b : R) :
    dirFromNatural [a, b] = .ok [(betaFromNatural (a, b)).1, (betaFromNatural (a, b)).2] := by
  simp [dirFromNatural, betaFromNatural]

/-- The two-column update used for the sticks is the update of the Dirichlet model. -/
theorem betaUpdate_eq (p q s : R × R) (l : R) :
    natGradUpdate dirNatural dirFromNatural [p.1, p.2] [q.1, q.2] [s.1, s.2] l
      = .ok [(betaUpdate p q s l).1, (betaUpdate p q s l).2] := by
  unfold natGradUpdate betaUpdate
  rw [betaNatural_eq, betaNatural_eq]
  simp only [vadd, vsub, vsmul, List.zipWith_cons_cons, List.zipWith_nil_right, List.map_cons,
    List.map_nil, betaFromNatural_eq]

theorem betaUpdate_closed (p q : R × R) (n t l : R) :
    betaUpdate p q (n, t + n) l
      = ((1 - l) * q.1 + l * (p.1 + n), (1 - l) * q.2 + l * (p.2 + t)) := by
  unfold betaUpdate betaNatural betaFromNatural
  ext <;> simp only [] <;> ring

theorem digamma_sub_neg {a b : ℝ} (ha : 0 < a) (hb : 0 < b) : digamma b - digamma (a + b) < 0 := by
  have h := gapFn_strictAnti hb (show b < a + b by linarith)
  have h2 := Real.log_lt_log hb (show b < a + b by linarith)
  simp only [gapFn] at h
  linarith

theorem exp_digamma_le {a b : ℝ} (ha : 0 < a) (hb : 0 < b) :
    Real.exp (digamma a - digamma (a + b)) ≤ a / (a + b) := by
  have h := digamma_sub_le ha (show a ≤ a + b by linarith)
  calc _ ≤ Real.exp (Real.log a - Real.log (a + b)) := Real.exp_le_exp.2 h
    _ = _ := by rw [Real.exp_sub, Real.exp_log ha, Real.exp_log (by linarith)]

end Verif
