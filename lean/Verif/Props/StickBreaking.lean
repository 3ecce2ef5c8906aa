import Verif.Lemmas.StickBreaking

/-!
# Stick-breaking categorical models: C50, C51, C52, C80
-/

namespace Verif.Props

open Finset Verif Verif.Dists Verif.Spec

variable {K : ℕ} [NeZero K]

/-! ## C50 : statistics -/

/-- **C50.** Whatever permutation the sort returns (ties included), the categories are ranked by
decreasing count, the statistics of category `k` are its count and, in the form expected by a
two-category Dirichlet (second entry = sum of both counts), the total count ranked after it; the
first entries add up to the total count. -/
theorem C50_stick_statistics {R : Type} [Field R] [LinearOrder R] (n : Fin K → R)
    (σ : Equiv.Perm (Fin K)) (hσ : SortsDesc n σ) :
    (∀ k j, RankedAfter σ k j → n j ≤ n k) ∧
    (∀ k, sbTransform σ n k = (n k, countAfter σ n k + n k)) ∧
    ∑ k, (sbTransform σ n k).1 = ∑ k, n k := by
  have h : ∀ k, sbTransform σ n k = (n k, countAfter σ n k + n k) := by
    intro k
    unfold sbTransform
    dsimp only
    rw [reverseOrdering_eq, flip_cumsum_flip, sum_shiftUp, sum_higher_rank σ n k,
      Equiv.apply_symm_apply]
    rfl
  refine ⟨?_, h, ?_⟩
  · intro k j hkj
    have := hσ _ _ (le_of_lt hkj)
    rwa [Equiv.apply_symm_apply, Equiv.apply_symm_apply] at this
  · exact Finset.sum_congr rfl fun k _ => by rw [h]

/-- **C50 (effect on the sticks).** A full update (`lrate = 1`) adds to the prior of category `k`
exactly its count and the total count of the categories ranked after it. -/
theorem C50_stick_posterior {R : Type} [Field R] (n : Fin K → R) (σ : Equiv.Perm (Fin K))
    (prior post : R × R) (k : Fin K) :
    natGradUpdate dirNatural dirFromNatural [prior.1, prior.2] [post.1, post.2]
      [(sbTransform σ n k).1, (sbTransform σ n k).2] 1
      = .ok [prior.1 + n k, prior.2 + countAfter σ n k] := by
  have h : sbTransform σ n k = (n k, countAfter σ n k + n k) := by
    unfold sbTransform
    dsimp only
    rw [reverseOrdering_eq, flip_cumsum_flip, sum_shiftUp, sum_higher_rank σ n k,
      Equiv.apply_symm_apply]
    rfl
  rw [betaUpdate_eq, h, betaUpdate_closed]
  simp

/-- Counts `(2, 5, 2)`: category 1 first, then 0 and 2 (a tie). -/
def demoCounts : Fin 3 → ℚ := ![2, 5, 2]

def demoOrder : Equiv.Perm (Fin 3) := Equiv.swap 0 1

theorem demoOrder_sorts : SortsDesc demoCounts demoOrder := by
  unfold SortsDesc; decide +kernel

example : SortsDesc demoCounts (Equiv.swap 0 1) ∧
    (sbTransform demoOrder demoCounts 0 = (2, 4)) ∧
    (sbTransform demoOrder demoCounts 1 = (5, 9)) ∧
    (sbTransform demoOrder demoCounts 2 = (2, 2)) :=
  ⟨demoOrder_sorts, by decide +kernel, by decide +kernel, by decide +kernel⟩

example : ∀ k, sbTransform demoOrder demoCounts k
    = (demoCounts k, countAfter demoOrder demoCounts k + demoCounts k) :=
  (C50_stick_statistics demoCounts demoOrder demoOrder_sorts).2.1

/-! ## C51 : weights -/

/-- **C51.** Whatever the ordering, the mean weights are the successive shares of the stick, they
are non-negative, and with exact arithmetic (`eps = 0`) they sum to one minus the product of the
expected remaining fractions. -/
theorem C51_stick_weights (σ : Equiv.Perm (Fin K)) (c : Fin K → ℝ × ℝ)
    (hc : ∀ k, 0 < (c k).1 ∧ 0 < (c k).2) :
    (∀ k, sbMean 0 σ c k = stickWeight σ (fun k => (c k).1 / ((c k).1 + (c k).2))
      (fun k => (c k).2 / ((c k).1 + (c k).2)) k) ∧
    (∀ k, 0 ≤ sbMean 0 σ c k) ∧
    ∑ k, sbMean 0 σ c k = 1 - ∏ k, (c k).2 / ((c k).1 + (c k).2) ∧
    ∑ k, sbMean 0 σ c k < 1 := by
  have hs : ∀ k, 0 < (c k).1 + (c k).2 := fun k => add_pos (hc k).1 (hc k).2
  have h1 : ∀ k, sbMean 0 σ c k = stickWeight σ (fun k => (c k).1 / ((c k).1 + (c k).2))
      (fun k => (c k).2 / ((c k).1 + (c k).2)) k := by
    intro k
    rw [sbMean_eq]
    simp only [add_zero]
  have h3 : ∑ k, sbMean 0 σ c k = 1 - ∏ k, (c k).2 / ((c k).1 + (c k).2) := by
    rw [← sum_stickWeight σ]
    apply Finset.sum_congr rfl
    intro k _
    rw [h1]
    congr 1
    funext k
    rw [eq_sub_iff_add_eq, ← add_div, div_self (hs k).ne']
  refine ⟨h1, fun k => ?_, h3, ?_⟩
  · rw [h1]
    exact stickWeight_nonneg σ _ _ (fun k => (div_pos (hc k).1 (hs k)).le)
      (fun k => (div_pos (hc k).2 (hs k)).le) k
  · rw [h3]
    have : 0 < ∏ k, (c k).2 / ((c k).1 + (c k).2) :=
      Finset.prod_pos fun k _ => div_pos (hc k).2 (hs k)
    linarith

/-- **C51 (with the guard against division by zero).** With the `eps` added by the code the weights
are still non-negative, and sum to at most one minus the product of the remaining fractions. -/
theorem C51_stick_weights_eps (eps : ℝ) (heps : 0 ≤ eps) (σ : Equiv.Perm (Fin K))
    (c : Fin K → ℝ × ℝ) (hc : ∀ k, 0 < (c k).1 ∧ 0 < (c k).2) :
    (∀ k, 0 ≤ sbMean eps σ c k) ∧
    ∑ k, sbMean eps σ c k ≤ 1 - ∏ k, (c k).2 / ((c k).1 + (c k).2 + eps) ∧
    ∑ k, sbMean eps σ c k < 1 := by
  have hs : ∀ k, 0 < (c k).1 + (c k).2 + eps := fun k => by
    have := hc k; linarith
  have h2 : ∑ k, sbMean eps σ c k ≤ 1 - ∏ k, (c k).2 / ((c k).1 + (c k).2 + eps) := by
    simp only [sbMean_eq]
    apply sum_stickWeight_le
    · intro k
      rw [le_sub_iff_add_le, ← add_div, div_le_one (hs k)]
      linarith
    · exact fun k => (div_pos (hc k).2 (hs k)).le
  refine ⟨fun k => ?_, h2, ?_⟩
  · rw [sbMean_eq]
    exact stickWeight_nonneg σ _ _ (fun k => (div_pos (hc k).1 (hs k)).le)
      (fun k => (div_pos (hc k).2 (hs k)).le) k
  · have : 0 < ∏ k, (c k).2 / ((c k).1 + (c k).2 + eps) :=
      Finset.prod_pos fun k _ => div_pos (hc k).2 (hs k)
    linarith

/-- Three sticks, the second category broken first: weights 3/8, 1/4, 1/8. -/
example : ∀ k : Fin 3, sbMean (0 : ℚ) demoOrder ![(1, 1), (1, 3), (1, 2)] k
    = ![3 / 8, 1 / 4, 1 / 8] k := by decide +kernel

example : ∑ k, sbMean 0 demoOrder (fun _ => ((1 : ℝ), (2 : ℝ))) k
    = 1 - ∏ _k : Fin 3, (2 : ℝ) / (1 + 2) :=
  (C51_stick_weights demoOrder (fun _ => (1, 2)) (fun _ => ⟨by norm_num, by norm_num⟩)).2.2.1

/-! ## C80 : expected log weights -/

/-- **C80.** `expected_log_likelihood` of a stick-breaking categorical is linear in the counts: the
log weight of category `k` is `E[ln v_k]` plus the sum of `E[ln (1 − v_j)]` over the categories
ranked before it; the exponentials of the log weights sum to less than one. -/
theorem C80_stick_log_weights (σ : Equiv.Perm (Fin K)) (c : Fin K → ℝ × ℝ)
    (hc : ∀ k, 0 < (c k).1 ∧ 0 < (c k).2) :
    (∀ n : Fin K → ℝ, sbExpLlh σ c n
      = ∑ k, n k * (digamma (c k).1 - digamma ((c k).1 + (c k).2)
          + ∑ j ∈ univ.filter (fun j => RankedAfter σ j k),
              (digamma (c j).2 - digamma ((c j).1 + (c j).2)))) ∧
    ∑ k, Real.exp (sbExpLlh σ c (Pi.single k 1)) < 1 := by
  have h1 : ∀ n : Fin K → ℝ, sbExpLlh σ c n
      = ∑ k, n k * (digamma (c k).1 - digamma ((c k).1 + (c k).2)
          + ∑ j ∈ univ.filter (fun j => RankedAfter σ j k),
              (digamma (c j).2 - digamma ((c j).1 + (c j).2))) := by
    intro n
    unfold sbExpLlh
    apply Finset.sum_congr rfl
    intro k _
    rw [reverseOrdering_eq]
    unfold sbLogProb sbLogV
    dsimp only
    rw [onTail_add_cumsum, Equiv.apply_symm_apply]
    congr 2
    refine Finset.sum_nbij' σ σ.symm ?_ ?_ (by simp) (by simp) (by simp)
    · intro a ha
      rw [Finset.mem_filter] at ha ⊢
      exact ⟨Finset.mem_univ _, by simpa only [RankedAfter, Equiv.symm_apply_apply] using ha.2⟩
    · intro a ha
      rw [Finset.mem_filter] at ha ⊢
      exact ⟨Finset.mem_univ _, ha.2⟩
  refine ⟨h1, ?_⟩
  set take : Fin K → ℝ := fun k => Real.exp (digamma (c k).1 - digamma ((c k).1 + (c k).2))
    with htake
  set leave : Fin K → ℝ := fun k => Real.exp (digamma (c k).2 - digamma ((c k).1 + (c k).2))
    with hleave
  have h2 : ∀ k, Real.exp (sbExpLlh σ c (Pi.single k 1)) = stickWeight σ take leave k := by
    intro k
    rw [h1]
    simp only [Pi.single_apply, ite_mul, one_mul, zero_mul, Finset.sum_ite_eq', Finset.mem_univ,
      if_true]
    rw [Real.exp_add, Real.exp_sum]
    rfl
  simp only [h2]
  have h3 := sum_stickWeight_le σ take leave (fun k => by
    have a := exp_digamma_le (hc k).1 (hc k).2
    have b := exp_digamma_le (hc k).2 (hc k).1
    rw [add_comm (c k).2] at b
    have e : (c k).1 / ((c k).1 + (c k).2) + (c k).2 / ((c k).1 + (c k).2) = 1 := by
      rw [← add_div, div_self (by have := hc k; linarith)]
    simp only [htake, hleave]
    linarith) (fun k => (Real.exp_pos _).le)
  have h4 : 0 < ∏ k, leave k := Finset.prod_pos fun k _ => Real.exp_pos _
  linarith

example : ∑ k, Real.exp (sbExpLlh demoOrder (fun _ => (1, 2)) (Pi.single k 1)) < 1 :=
  (C80_stick_log_weights demoOrder (fun _ => (1, 2)) (fun _ => ⟨by norm_num, by norm_num⟩)).2

/-! ## C81 : prior of a hierarchical set -/

/-- **C81 (initial ordering).** When the root has not re-ordered its categories yet, the prior of
every member of a hierarchical set is valid and its mean weights are the mean weights of the root. -/
theorem C81_set_prior_mean_partial (strength : ℝ) (hs : 0 < strength) (c : Fin K → ℝ × ℝ)
    (hc : ∀ k, 0 < (c k).1 ∧ 0 < (c k).2) :
    (∀ k, 0 < (sbSetPrior strength (sbMean 0 id c) k).1 ∧
      0 < (sbSetPrior strength (sbMean 0 id c) k).2) ∧
    ∀ k, sbMean 0 id (sbSetPrior strength (sbMean 0 id c)) k = sbMean 0 id c k := by
  have hid : (id : Fin K → Fin K) = (Equiv.refl (Fin K)) := rfl
  have hs' : ∀ k, 0 < (c k).1 + (c k).2 := fun k => add_pos (hc k).1 (hc k).2
  set v : Fin K → ℝ := fun k => (c k).1 / ((c k).1 + (c k).2) with hv
  set u : Fin K → ℝ := fun k => (c k).2 / ((c k).1 + (c k).2) with hu
  have hvu : ∀ k, v k = 1 - u k := fun k => by
    rw [eq_sub_iff_add_eq, hv, hu]
    simp only []
    rw [← add_div, div_self (hs' k).ne']
  have hvp : ∀ k, 0 < v k := fun k => div_pos (hc k).1 (hs' k)
  have hup : ∀ k, 0 < u k := fun k => div_pos (hc k).2 (hs' k)
  have hw : ∀ k, sbMean 0 id c k = v k * ∏ j ∈ univ.filter (· < k), u j := by
    intro k
    rw [hid, sbMean_eq]
    unfold stickWeight
    simp only [add_zero]
    rw [← prod_lower_rank (Equiv.refl (Fin K)) u k]
    rfl
  have hW : ∀ k, cumsum (sbMean 0 id c) k = 1 - u k * ∏ j ∈ univ.filter (· < k), u j := by
    intro k
    unfold cumsum
    have h := Finset.prod_one_sub_ordered (univ.filter (· ≤ k)) v
    have e1 : ∏ i ∈ univ.filter (· ≤ k), (1 - v i) = u k * ∏ j ∈ univ.filter (· < k), u j := by
      have : univ.filter (· ≤ k) = insert k (univ.filter (· < k)) := by
        ext j; simp [le_iff_eq_or_lt]
      rw [this, Finset.prod_insert (by simp), hvu, sub_sub_cancel]
      congr 1
      exact Finset.prod_congr rfl fun j _ => by rw [hvu, sub_sub_cancel]
    rw [e1] at h
    rw [h, sub_sub_cancel]
    apply Finset.sum_congr rfl
    intro i hi
    rw [hw]
    congr 1
    rw [Finset.filter_filter]
    apply Finset.prod_congr
    · ext j
      simp only [Finset.mem_filter, Finset.mem_univ, true_and] at hi ⊢
      exact ⟨fun h => ⟨h.le.trans hi, h⟩, fun h => h.2⟩
    · intro j _; rw [hvu, sub_sub_cancel]
  have hP : ∀ k, 0 < ∏ j ∈ univ.filter (· < k), u j := fun k => Finset.prod_pos fun j _ => hup j
  have h1 : ∀ k, sbSetPrior strength (sbMean 0 id c) k
      = (strength * (v k * ∏ j ∈ univ.filter (· < k), u j),
         strength * (u k * ∏ j ∈ univ.filter (· < k), u j)) := by
    intro k
    unfold sbSetPrior
    rw [hw, hW, sub_sub_cancel]
  refine ⟨fun k => ?_, fun k => ?_⟩
  · rw [h1]
    exact ⟨mul_pos hs (mul_pos (hvp k) (hP k)), mul_pos hs (mul_pos (hup k) (hP k))⟩
  · have h2 : ∀ k, (sbSetPrior strength (sbMean 0 id c) k).1 /
        ((sbSetPrior strength (sbMean 0 id c) k).1 + (sbSetPrior strength (sbMean 0 id c) k).2 + 0)
        = v k ∧ (sbSetPrior strength (sbMean 0 id c) k).2 /
        ((sbSetPrior strength (sbMean 0 id c) k).1 + (sbSetPrior strength (sbMean 0 id c) k).2 + 0)
        = u k := by
      intro k
      rw [h1]
      have hp := hP k
      have e : strength * (v k * ∏ j ∈ univ.filter (· < k), u j)
          + strength * (u k * ∏ j ∈ univ.filter (· < k), u j) + 0
          = strength * ∏ j ∈ univ.filter (· < k), u j := by
        rw [hvu k]; ring
      simp only [e]
      generalize ∏ j ∈ univ.filter (· < k), u j = P at hp
      constructor <;> field_simp
    rw [hw k, hid, sbMean_eq, ← hid]
    unfold stickWeight
    rw [← prod_lower_rank (Equiv.refl (Fin K)) (fun k => (sbSetPrior strength (sbMean 0 id c) k).2 /
        ((sbSetPrior strength (sbMean 0 id c) k).1 + (sbSetPrior strength (sbMean 0 id c) k).2 + 0))
        k]
    exact congrArg₂ (· * ·) (h2 k).1 (Finset.prod_congr rfl fun j _ => (h2 _).2)

/-- **C81 (after re-ordering).** The prior is computed with cumulative sums in category order while
its sticks are read in the order of the root: with two categories re-ordered, a root with mean
weights `(1/8, 3/4)` gives members with prior mean weights `(1/56, 6/7)`. -/
theorem C81_set_prior_mean_fails : ∃ (σ : Equiv.Perm (Fin 2)) (c : Fin 2 → ℚ × ℚ),
    (∀ k, 0 < (c k).1 ∧ 0 < (c k).2) ∧ SortsDesc (fun k => (c k).1) σ ∧
    ∃ k, sbMean 0 σ (sbSetPrior 1 (sbMean 0 σ c)) k ≠ sbMean 0 σ c k :=
  ⟨Equiv.swap 0 1, ![(1, 1), (3, 1)], by decide +kernel, by unfold SortsDesc; decide +kernel, 0,
    by decide +kernel⟩

example : ∀ k, sbMean 0 (Equiv.swap (0 : Fin 2) 1) (![(1, 1), (3, 1)] : Fin 2 → ℚ × ℚ) k
    = ![1 / 8, 3 / 4] k ∧
    sbMean 0 (Equiv.swap (0 : Fin 2) 1) (sbSetPrior 1 ![1 / 8, (3 / 4 : ℚ)]) k
      = ![1 / 56, 6 / 7] k := by decide +kernel

example : sbMean 0 id (sbSetPrior 2 (sbMean 0 id (fun _ : Fin 3 => ((1 : ℝ), (2 : ℝ))))) 1
    = sbMean 0 id (fun _ : Fin 3 => ((1 : ℝ), (2 : ℝ))) 1 :=
  (C81_set_prior_mean_partial 2 (by norm_num) (fun _ => (1, 2))
    (fun _ => ⟨by norm_num, by norm_num⟩)).2 1

/-! ## C52 : concentration hyper-prior -/

/-- Valid state: positive sticks, one-dimensional Gamma with positive parameters. -/
structure SBValid (a0 b0 : ℝ) (first : Fin K → ℝ) (s : SBState K) : Prop where
  post : ∀ k, 0 < (s.sbPost k).1 ∧ 0 < (s.sbPost k).2
  prior1 : ∀ k, (s.sbPrior k).1 = first k
  concPrior : s.concPrior = ⟨[a0], [b0]⟩
  conc : ∃ a b, 0 < a ∧ 0 < b ∧ s.concPost = ⟨[a], [b]⟩ ∧ ∀ k, (s.sbPrior k).2 = a / b

/-- Counts are non-negative and the learning rate is in `[0, 1]`. -/
def SBOpOk (op : SBOp K) : Prop := (∀ k, 0 ≤ op.stats k) ∧ 0 ≤ op.lrate ∧ op.lrate ≤ 1

/-- The concentration posterior prescribed by the current sticks. -/
noncomputable def concTarget (a0 b0 : ℝ) (c : Fin K → ℝ × ℝ) : GammaP ℝ :=
  ⟨[a0 + K], [b0 - ∑ k, (digamma (c k).2 - digamma ((c k).1 + (c k).2))]⟩

theorem gamma_full_update (a0 b0 a b x y : ℝ) :
    natGradUpdate gamNatural gamFromNatural ⟨[a0], [b0]⟩ ⟨[a], [b]⟩ [x, y] 1
      = .ok ⟨[a0 + y], [b0 - x]⟩ := by
  unfold natGradUpdate gamNatural gamFromNatural vadd vsub vsmul
  simp
  constructor <;> ring

theorem sbStep_spec {a0 b0 : ℝ} (ha0 : 0 < a0) (hb0 : 0 < b0) {first : Fin K → ℝ}
    (hfirst : ∀ k, 0 < first k) (s : SBState K) (hs : SBValid a0 b0 first s) (op : SBOp K)
    (hop : SBOpOk op) :
    ∃ s', sbStep s op.order op.stats op.lrate = .ok s' ∧ SBValid a0 b0 first s' ∧
      s'.concPost = concTarget a0 b0 s'.sbPost := by
  obtain ⟨a, b, ha, hb, hconc, hprior⟩ := hs.conc
  have hpost : ∀ k, 0 < (betaUpdate (s.sbPrior k) (s.sbPost k) (sbTransform op.order op.stats k)
      op.lrate).1 ∧ 0 < (betaUpdate (s.sbPrior k) (s.sbPost k) (sbTransform op.order op.stats k)
      op.lrate).2 := by
    intro k
    have h : sbTransform op.order op.stats k
        = (op.stats k, countAfter op.order op.stats k + op.stats k) := by
      unfold sbTransform
      dsimp only
      rw [reverseOrdering_eq, flip_cumsum_flip, sum_shiftUp, sum_higher_rank op.order op.stats k,
        Equiv.apply_symm_apply]
      rfl
    have ht : 0 ≤ countAfter op.order op.stats k := Finset.sum_nonneg fun j _ => hop.1 j
    rw [h, betaUpdate_closed]
    have h1 : 0 < (s.sbPrior k).1 + op.stats k := by
      rw [hs.prior1 k]; have := hfirst k; have := hop.1 k; linarith
    have h2 : 0 < (s.sbPrior k).2 + countAfter op.order op.stats k := by
      rw [hprior k]; have := div_pos ha hb; linarith
    obtain ⟨q1, q2⟩ := hs.post k
    rcases hop.2.1.eq_or_lt with hl | hl
    · rw [← hl]
      simp only [sub_zero, one_mul, zero_mul, add_zero]
      exact ⟨q1, q2⟩
    · have hl' : 0 ≤ 1 - op.lrate := by have := hop.2.2; linarith
      exact ⟨add_pos_of_nonneg_of_pos (mul_nonneg hl' q1.le) (mul_pos hl h1),
        add_pos_of_nonneg_of_pos (mul_nonneg hl' q2.le) (mul_pos hl h2)⟩
  unfold sbStep onStickbreakingUpdate
  dsimp only
  set c : Fin K → ℝ × ℝ := fun k => betaUpdate (s.sbPrior k) (s.sbPost k)
    (sbTransform op.order op.stats k) op.lrate with hcdef
  clear_value c
  have hc : ∀ k, 0 < (c k).1 ∧ 0 < (c k).2 := by
    intro k
    have := hpost k
    rw [hcdef]
    exact this
  rw [hs.concPrior, hconc, gamma_full_update]
  dsimp only
  have hsum : ∑ i, (sbLogProb op.order c).2 i
      = ∑ k, (digamma (c k).2 - digamma ((c k).1 + (c k).2)) := by
    unfold sbLogProb sbLogV
    dsimp only
    exact Equiv.sum_comp op.order
      (fun k => digamma (c k).2 - digamma ((c k).1 + (c k).2))
  have hneg : ∑ k, (digamma (c k).2 - digamma ((c k).1 + (c k).2)) ≤ 0 :=
    Finset.sum_nonpos fun k _ => (digamma_sub_neg (hc k).1 (hc k).2).le
  have hcard : ∑ _i : Fin K, (1 : ℝ) = K := by simp
  unfold onConcentrationUpdate gamValue
  simp only [List.zipWith_cons_cons, List.zipWith_nil_right]
  refine ⟨_, rfl, ?_, ?_⟩
  · refine ⟨hc, hs.prior1, rfl, _, _, ?_, ?_, rfl, fun k => rfl⟩
    · rw [hcard]; positivity
    · rw [hsum]; linarith
  · unfold concTarget
    simp only []
    rw [hsum, hcard]

/-- **C52.** Starting from any valid sticks, any hyper-prior `Gamma(a0, b0)` and any concentration
posterior, every history of updates with non-negative counts and learning rates in `[0, 1]`
succeeds; afterwards the concentration posterior is `Gamma(a0 + K, b0 − Σ E[ln (1 − v_k)])` for the
current sticks — no trace of previous concentration posteriors —, it is valid, the sticks are valid,
and the prior of every stick is `(its initial first entry, current mean concentration)`. -/
theorem C52_concentration_update {a0 b0 a b : ℝ} (ha0 : 0 < a0) (hb0 : 0 < b0) (ha : 0 < a)
    (hb : 0 < b) (prior post : Fin K → ℝ × ℝ) (hprior : ∀ k, 0 < (prior k).1)
    (hpost : ∀ k, 0 < (post k).1 ∧ 0 < (post k).2) (ops : List (SBOp K))
    (hops : ∀ op ∈ ops, SBOpOk op) :
    ∃ s0 s, sbInit prior post ⟨[a0], [b0]⟩ ⟨[a], [b]⟩ = .ok s0 ∧ sbRun s0 ops = .ok s ∧
      (∀ k, 0 < (s.sbPost k).1 ∧ 0 < (s.sbPost k).2) ∧
      (∃ a' b', 0 < a' ∧ 0 < b' ∧ s.concPost = ⟨[a'], [b']⟩ ∧
        ∀ k, s.sbPrior k = ((prior k).1, a' / b')) ∧
      (ops ≠ [] → s.concPost = ⟨[a0 + K],
        [b0 - ∑ k, (digamma (s.sbPost k).2 - digamma ((s.sbPost k).1 + (s.sbPost k).2))]⟩) := by
  have key : ∀ (ops : List (SBOp K)), (∀ op ∈ ops, SBOpOk op) → ∀ s0 : SBState K,
      SBValid a0 b0 (fun k => (prior k).1) s0 →
      ∃ s, sbRun s0 ops = .ok s ∧ SBValid a0 b0 (fun k => (prior k).1) s ∧
        (ops ≠ [] → s.concPost = concTarget a0 b0 s.sbPost) := by
    intro ops
    induction ops with
    | nil => intro _ s0 h0; exact ⟨s0, rfl, h0, fun h => absurd rfl h⟩
    | cons op ops ih =>
      intro hops s0 h0
      obtain ⟨s1, h1, v1, c1⟩ := sbStep_spec ha0 hb0 hprior s0 h0 op
        (hops op List.mem_cons_self)
      obtain ⟨s, h2, v2, c2⟩ := ih (fun o ho => hops o (List.mem_cons_of_mem _ ho)) s1 v1
      refine ⟨s, ?_, v2, fun _ => ?_⟩
      · simp only [sbRun, h1, h2]
      · cases ops with
        | nil =>
          simp only [sbRun, Except.ok.injEq] at h2
          rw [← h2]; exact c1
        | cons _ _ => exact c2 (by simp)
  have hv : SBValid a0 b0 (fun k => (prior k).1)
      ⟨fun k => ((prior k).1, a / b), post, Equiv.refl _, ⟨[a0], [b0]⟩, ⟨[a], [b]⟩⟩ :=
    ⟨hpost, fun _ => rfl, rfl, a, b, ha, hb, rfl, fun _ => rfl⟩
  obtain ⟨s, h1, v, c⟩ := key ops hops _ hv
  obtain ⟨a', b', ha', hb', hc', hp'⟩ := v.conc
  exact ⟨_, s, rfl, h1, v.post, ⟨a', b', ha', hb', hc', fun k => Prod.ext (v.prior1 k) (hp' k)⟩, c⟩

/-- Two updates of a three-stick model with concentration hyper-prior `Gamma(1, 1)`. -/
example : ∃ s0 s : SBState 3, sbInit (fun _ => (1, 1)) (fun _ => (1, 1)) ⟨[1], [1]⟩ ⟨[1], [1]⟩
      = .ok s0 ∧
    sbRun s0 [⟨demoOrder, ![2, 5, 2], 1⟩, ⟨Equiv.refl _, ![3, 1, 0], 1 / 2⟩] = .ok s ∧
    s.concPost = ⟨[1 + (3 : ℕ)],
      [1 - ∑ k, (digamma (s.sbPost k).2 - digamma ((s.sbPost k).1 + (s.sbPost k).2))]⟩ := by
  obtain ⟨s0, s, h0, h1, _, _, h2⟩ := C52_concentration_update (K := 3) (a0 := 1) (b0 := 1) (a := 1)
    (b := 1) one_pos one_pos one_pos one_pos (fun _ => (1, 1)) (fun _ => (1, 1))
    (fun _ => one_pos) (fun _ => ⟨one_pos, one_pos⟩)
    [⟨demoOrder, ![2, 5, 2], 1⟩, ⟨Equiv.refl _, ![3, 1, 0], 1 / 2⟩] (by
      intro op hop
      simp only [List.mem_cons, List.not_mem_nil, or_false] at hop
      rcases hop with rfl | rfl
      · refine ⟨fun k => ?_, by norm_num, by norm_num⟩
        fin_cases k <;> simp
      · refine ⟨fun k => ?_, by norm_num, by norm_num⟩
        fin_cases k <;> simp)
  exact ⟨s0, s, h0, h1, h2 (by simp)⟩

end Verif.Props
