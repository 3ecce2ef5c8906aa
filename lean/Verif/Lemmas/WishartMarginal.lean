import Verif.Spec.Wishart
import Verif.Lemmas.NormalGammaMarginal
import Verif.Lemmas.WishartKL

/-!
# Marginal densities of Gaussian data under Normal-Wishart priors
-/

namespace Verif

open Real MeasureTheory ProbabilityTheory Set Verif.Dists Verif.VB
open scoped ENNReal Matrix

/-! ## Integrals of triangular products -/

/-- Factors that depend on their own coordinate and on a combination of the previous ones, and whose
integrals do not depend on this combination. -/
theorem tri_integral {n : ℕ} (μ : Fin n → Measure ℝ) (hμ : ∀ j, IsProbabilityMeasure (μ j))
    (V : Fin n → Fin n → ℝ) (h : Fin n → ℝ → ℝ → ℝ≥0∞)
    (hm : ∀ j, Measurable fun p : ℝ × ℝ => h j p.1 p.2) (κ : Fin n → ℝ≥0∞)
    (hκ : ∀ j c, ∫⁻ t, h j c t ∂μ j = κ j) :
    ∫⁻ b, ∏ j, h j (∑ l, if l < j then V l j * b l else 0) (b j) ∂Measure.pi μ = ∏ j, κ j := by
  induction n with
  | zero => simp
  | succ n ih =>
    have hf : Measurable fun b : Fin (n + 1) → ℝ =>
        ∏ j, h j (∑ l, if l < j then V l j * b l else 0) (b j) := by
      refine Finset.measurable_prod _ fun j _ => ?_
      have : Measurable fun b : Fin (n + 1) → ℝ =>
          ((∑ l, if l < j then V l j * b l else 0 : ℝ), b j) := by
        refine Measurable.prodMk (Finset.measurable_sum _ fun l _ => ?_) (measurable_pi_apply j)
        split_ifs
        · exact measurable_const.mul (measurable_pi_apply l)
        · exact measurable_const
      exact (hm j).comp this
    have hmp := (measurePreserving_piFinSuccAbove μ (Fin.last n)).symm
    rw [← hmp.lintegral_comp hf]
    have hpt : ∀ p : ℝ × (Fin n → ℝ), (∏ j, h j (∑ l, if l < j then
        V l j * (MeasurableEquiv.piFinSuccAbove (fun _ => ℝ) (Fin.last n)).symm p l else 0)
        ((MeasurableEquiv.piFinSuccAbove (fun _ => ℝ) (Fin.last n)).symm p j)) =
        (∏ j : Fin n, h j.castSucc (∑ l, if l < j then V l.castSucc j.castSucc * p.2 l else 0) (p.2 j)) *
          h (Fin.last n) (∑ l : Fin n, V l.castSucc (Fin.last n) * p.2 l) p.1 := by
      intro p
      have e1 : ∀ l : Fin n,
          (MeasurableEquiv.piFinSuccAbove (fun _ => ℝ) (Fin.last n)).symm p l.castSucc = p.2 l := by
        intro l
        simp [MeasurableEquiv.piFinSuccAbove, Fin.insertNthEquiv]
      have e2 : (MeasurableEquiv.piFinSuccAbove (fun _ => ℝ) (Fin.last n)).symm p (Fin.last n) = p.1 := by
        simp [MeasurableEquiv.piFinSuccAbove, Fin.insertNthEquiv]
      rw [Fin.prod_univ_castSucc]
      congr 1
      · refine Finset.prod_congr rfl fun j _ => ?_
        rw [e1, Fin.sum_univ_castSucc]
        simp only [e1, Fin.castSucc_lt_castSucc_iff]
        rw [if_neg (by simp [Fin.le_last]), add_zero]
      · rw [e2, Fin.sum_univ_castSucc]
        simp only [e1, Fin.castSucc_lt_last, if_true]
        rw [if_neg (by simp), add_zero]
    simp_rw [hpt]
    have hrest : Measurable fun b : Fin n → ℝ =>
        ∏ j : Fin n, h j.castSucc (∑ l, if l < j then V l.castSucc j.castSucc * b l else 0) (b j) := by
      refine Finset.measurable_prod _ fun j _ => ?_
      have : Measurable fun b : Fin n → ℝ =>
          ((∑ l, if l < j then V l.castSucc j.castSucc * b l else 0 : ℝ), b j) := by
        refine Measurable.prodMk (Finset.measurable_sum _ fun l _ => ?_) (measurable_pi_apply j)
        split_ifs
        · exact measurable_const.mul (measurable_pi_apply l)
        · exact measurable_const
      exact (hm j.castSucc).comp this
    have hlast : Measurable fun p : ℝ × (Fin n → ℝ) =>
        h (Fin.last n) (∑ l : Fin n, V l.castSucc (Fin.last n) * p.2 l) p.1 := by
      have : Measurable fun p : ℝ × (Fin n → ℝ) =>
          ((∑ l : Fin n, V l.castSucc (Fin.last n) * p.2 l : ℝ), p.1) := by
        refine Measurable.prodMk (Finset.measurable_sum _ fun l _ => ?_) measurable_fst
        exact measurable_const.mul ((measurable_pi_apply l).comp measurable_snd)
      exact (hm (Fin.last n)).comp this
    have hall : Measurable fun p : ℝ × (Fin n → ℝ) => (∏ j : Fin n, h j.castSucc
          (∑ l, if l < j then V l.castSucc j.castSucc * p.2 l else 0) (p.2 j)) *
          h (Fin.last n) (∑ l : Fin n, V l.castSucc (Fin.last n) * p.2 l) p.1 :=
      (hrest.comp measurable_snd).mul hlast
    rw [lintegral_prod_symm _ hall.aemeasurable]
    have hin : ∀ b : Fin n → ℝ, ∫⁻ t, ((∏ j : Fin n, h j.castSucc
          (∑ l, if l < j then V l.castSucc j.castSucc * b l else 0) (b j)) *
          h (Fin.last n) (∑ l : Fin n, V l.castSucc (Fin.last n) * b l) t) ∂μ (Fin.last n) =
        (∏ j : Fin n, h j.castSucc (∑ l, if l < j then V l.castSucc j.castSucc * b l else 0) (b j)) *
          κ (Fin.last n) := by
      intro b
      rw [lintegral_const_mul _ (by
        exact (hm (Fin.last n)).comp (measurable_const.prodMk measurable_id)), hκ]
    simp_rw [hin]
    rw [lintegral_mul_const _ hrest]
    have := ih (fun j => μ j.castSucc) (fun j => hμ _) (fun l j => V l.castSucc j.castSucc)
      (fun j => h j.castSucc) (fun j => hm _) (fun j => κ j.castSucc) (fun j c => hκ _ c)
    rw [Fin.prod_univ_castSucc]
    congr 1
    convert this using 3
    simp

/-! ## The entries of Bartlett's factor -/

theorem gauss_exp_shift (a c : ℝ) (ha : 0 < a) :
    ∫⁻ t, ENNReal.ofReal (exp (-(1/2) * ((a * t + c) ^ 2 - t ^ 2))) ∂gaussianReal 0 1 =
      ENNReal.ofReal (exp (-log a)) := by
  have hv : (1 / a ^ 2).toNNReal ≠ 0 := by
    rw [Ne, Real.toNNReal_eq_zero, not_le]; positivity
  rw [gaussianReal_of_var_ne_zero _ one_ne_zero,
    lintegral_withDensity_eq_lintegral_mul _ (measurable_gaussianPDF _ _) (by fun_prop)]
  have hpt : ∀ t : ℝ, ((gaussianPDF 0 1 : ℝ → ℝ≥0∞) * (fun t : ℝ => ENNReal.ofReal
      (exp (-(1/2) * ((a * t + c) ^ 2 - t ^ 2))))) t =
      ENNReal.ofReal (exp (-log a)) * gaussianPDF (-c / a) (1 / a ^ 2).toNNReal t := by
    intro t
    have h1 : (gaussianPDF 0 1 : ℝ → ℝ≥0∞) t = gaussianPDF 0 (1 / (1 : ℝ)).toNNReal t := by simp
    rw [Pi.mul_apply, h1, gaussianPDF_prec _ _ _ one_pos, gaussianPDF_prec _ _ _ (by positivity),
      ← ENNReal.ofReal_mul (by positivity), ← ENNReal.ofReal_mul (by positivity)]
    congr 1
    rw [exp_neg, exp_log ha, sqrt_div (by positivity), sqrt_div (by positivity), sqrt_sq ha.le, sqrt_one,
      mul_assoc, ← exp_add,
      show -(1 / 2) * (t - 0) ^ 2 + -(1/2) * ((a * t + c) ^ 2 - t ^ 2) = -(a ^ 2 / 2) * (t - -c / a) ^ 2 by
        field_simp; ring]
    field_simp
  simp_rw [hpt]
  rw [lintegral_const_mul _ (measurable_gaussianPDF _ _), lintegral_gaussianPDF_eq_one _ hv, mul_one]

theorem chi_diag (w a : ℝ) (N : ℕ) (hw : 0 < w) (ha : 0 < a) :
    ∫⁻ t, ENNReal.ofReal (|t| ^ N * exp (-(1/2) * ((a * t) ^ 2 - t ^ 2)))
      ∂(gammaMeasure (w / 2) (1 / 2)).map Real.sqrt =
    ENNReal.ofReal (exp (N / 2 * log 2 + lgamma (w / 2 + N / 2) - lgamma (w / 2) - (w + N) * log a)) := by
  have hG := Real.Gamma_pos_of_pos (show 0 < w / 2 by linarith)
  have hG' := Real.Gamma_pos_of_pos (show 0 < w / 2 + N / 2 by positivity)
  rw [lintegral_map (by fun_prop) (by fun_prop)]
  have hpt : (fun l => ENNReal.ofReal (|√l| ^ N * exp (-(1/2) * ((a * √l) ^ 2 - √l ^ 2))))
      =ᵐ[gammaMeasure (w / 2) (1 / 2)] fun l =>
        ENNReal.ofReal (l ^ (N / 2 : ℝ) * exp (-((a ^ 2 - 1) / 2 * l))) := by
    filter_upwards [gamma_ae_pos (w / 2) (1 / 2)] with l hl
    congr 2
    · rw [abs_of_nonneg (sqrt_nonneg _), sqrt_eq_rpow, ← rpow_natCast, ← rpow_mul hl.le]
      congr 1
      ring
    · rw [mul_pow, sq_sqrt hl.le]
      congr 1
      ring
  rw [lintegral_congr_ae hpt, gamma_power_exp _ _ _ _ (by linarith) (by norm_num) (by positivity)
    (by nlinarith [sq_pos_of_pos ha])]
  congr 1
  have e : (1 / 2 + (a ^ 2 - 1) / 2 : ℝ) = exp (2 * log a - log 2) := by
    rw [exp_sub, exp_log (by norm_num), two_mul, exp_add, exp_log ha]
    ring
  have e2 : (1 / 2 : ℝ) = exp (-log 2) := by rw [exp_neg, exp_log (by norm_num)]; norm_num
  unfold lgamma
  rw [e, ← exp_mul, show ((1 / 2 : ℝ)) ^ (w / 2) = exp (-log 2 * (w / 2)) by
    rw [exp_mul, ← e2], exp_sub, exp_sub, exp_add, exp_log hG', exp_log hG]
  field_simp
  rw [← exp_add, ← exp_add]
  congr 1
  ring

/-- The law of one entry of Bartlett's factor. -/
noncomputable def entryLaw {D : ℕ} (v : ℝ) (i j : Fin D) : Measure ℝ :=
  if j < i then Measure.dirac 0
  else if j = i then (gammaMeasure ((v - i) / 2) (1 / 2)).map Real.sqrt
  else gaussianReal 0 1

theorem entryLaw_prob {D : ℕ} (v : ℝ) (hv : (D : ℝ) - 1 < v) (i j : Fin D) :
    IsProbabilityMeasure (entryLaw v i j) := by
  have hi : (i : ℝ) ≤ D - 1 := by
    have : (i : ℕ) + 1 ≤ D := i.2
    have : ((i : ℕ) : ℝ) + 1 ≤ D := by exact_mod_cast this
    linarith
  have hg : IsProbabilityMeasure (gammaMeasure ((v - i) / 2) (1 / 2)) :=
    isProbabilityMeasure_gammaMeasure (by linarith) (by norm_num)
  unfold entryLaw
  split_ifs
  · infer_instance
  · exact Measure.isProbabilityMeasure_map (by fun_prop)
  · infer_instance

/-- The factor of coordinate `j` in the integral over row `i`. -/
noncomputable def rowFactor {D : ℕ} (V : Matrix (Fin D) (Fin D) ℝ) (N : ℕ) (i j : Fin D) (c t : ℝ) :
    ℝ≥0∞ :=
  if j < i then 1
  else if j = i then ENNReal.ofReal (|t| ^ N * exp (-(1/2) * ((V i i * t) ^ 2 - t ^ 2)))
  else ENNReal.ofReal (exp (-(1/2) * ((V j j * t + c) ^ 2 - t ^ 2)))

noncomputable def rowValue {D : ℕ} (V : Matrix (Fin D) (Fin D) ℝ) (v : ℝ) (N : ℕ) (i j : Fin D) : ℝ :=
  if j < i then 0
  else if j = i then N / 2 * log 2 + lgamma ((v - i) / 2 + N / 2) - lgamma ((v - i) / 2) -
    (v - i + N) * log (V i i)
  else -log (V j j)

/-- The integral over a row of Bartlett's factor. -/
theorem row_integral {D : ℕ} (v : ℝ) (hv : (D : ℝ) - 1 < v) (V : Matrix (Fin D) (Fin D) ℝ)
    (hV : ∀ l j, j < l → V l j = 0) (hpos : ∀ j, 0 < V j j) (N : ℕ) (i : Fin D) :
    ∫⁻ b, ENNReal.ofReal (|b i| ^ N * exp (-(1/2) * ∑ j, ((∑ l, V l j * b l) ^ 2 - b j ^ 2)))
      ∂Measure.pi (entryLaw v i) = ENNReal.ofReal (exp (∑ j, rowValue V v N i j)) := by
  have hp := entryLaw_prob v hv i
  have hi : (i : ℝ) ≤ D - 1 := by
    have : (i : ℕ) + 1 ≤ D := i.2
    have : ((i : ℕ) : ℝ) + 1 ≤ D := by exact_mod_cast this
    linarith
  have hz : ∀ᵐ b ∂Measure.pi (entryLaw v i), ∀ l, l < i → b l = 0 := by
    rw [ae_all_iff]
    intro l
    by_cases hl : l < i
    · have h1 : ∀ᵐ t ∂entryLaw v i l, t = 0 := by
        unfold entryLaw
        rw [if_pos hl, ae_dirac_eq]
        simp
      have := (Measure.tendsto_eval_ae_ae (μ := entryLaw v i) (i := l)).eventually h1
      filter_upwards [this] with b hb _
      exact hb
    · exact Filter.Eventually.of_forall fun b h => absurd h hl
  have hpt : (fun b : Fin D → ℝ => ENNReal.ofReal (|b i| ^ N *
      exp (-(1/2) * ∑ j, ((∑ l, V l j * b l) ^ 2 - b j ^ 2)))) =ᵐ[Measure.pi (entryLaw v i)]
      fun b => ∏ j, rowFactor V N i j (∑ l, if l < j then V l j * b l else 0) (b j) := by
    filter_upwards [hz] with b hb
    have hsum : ∀ j, ∑ l, V l j * b l = V j j * b j + ∑ l, if l < j then V l j * b l else 0 := by
      intro j
      have : ∀ l, V l j * b l = (if l = j then V j j * b j else 0) +
          if l < j then V l j * b l else 0 := by
        intro l
        rcases lt_trichotomy l j with h | h | h
        · rw [if_neg h.ne, if_pos h, zero_add]
        · subst h; simp
        · rw [if_neg h.ne', if_neg h.not_gt, hV l j h]; simp
      rw [Finset.sum_congr rfl fun l _ => this l, Finset.sum_add_distrib]
      simp
    have hc : ∀ j, j ≤ i → (∑ l, if l < j then V l j * b l else 0) = 0 := by
      intro j hj
      refine Finset.sum_eq_zero fun l _ => ?_
      split_ifs with h
      · rw [hb l (lt_of_lt_of_le h hj), mul_zero]
      · rfl
    have hfac : ∀ j, rowFactor V N i j (∑ l, if l < j then V l j * b l else 0) (b j) =
        ENNReal.ofReal ((if j = i then |b i| ^ N else 1) *
          exp (-(1/2) * ((∑ l, V l j * b l) ^ 2 - b j ^ 2))) := by
      intro j
      unfold rowFactor
      rw [hsum j]
      rcases lt_trichotomy j i with h | h | h
      · rw [if_pos h, if_neg h.ne, hc j h.le, hb j h]
        simp
      · subst h
        rw [if_neg (lt_irrefl _), if_pos rfl, if_pos rfl, hc j le_rfl, add_zero]
      · rw [if_neg h.not_gt, if_neg h.ne', if_neg h.ne', one_mul]
    rw [Finset.prod_congr rfl fun j _ => hfac j, ← ENNReal.ofReal_prod_of_nonneg (fun j _ => by
      split_ifs <;> positivity), Finset.prod_mul_distrib, ← exp_sum, ← Finset.mul_sum]
    simp
  rw [lintegral_congr_ae hpt, tri_integral (entryLaw v i) hp V (rowFactor V N i) (by
      intro j
      unfold rowFactor
      split_ifs <;> fun_prop) (fun j => ENNReal.ofReal (exp (rowValue V v N i j))) (by
      intro j c
      unfold rowFactor entryLaw rowValue
      rcases lt_trichotomy j i with h | h | h
      · simp only [if_pos h]; simp
      · subst h
        simp only [if_neg (lt_irrefl j), if_true]
        exact chi_diag _ _ _ (by linarith) (hpos j)
      · simp only [if_neg h.not_gt, if_neg h.ne']
        exact gauss_exp_shift _ _ (hpos j)),
    ← ENNReal.ofReal_prod_of_nonneg (fun j _ => (exp_pos _).le), ← exp_sum]

theorem rowValue_sum {D : ℕ} (V : Matrix (Fin D) (Fin D) ℝ) (v : ℝ) (N : ℕ) :
    ∑ i : Fin D, ∑ j, rowValue V v N i j = ∑ i : Fin D, (N / 2 * log 2 + lgamma ((v - i) / 2 + N / 2) -
      lgamma ((v - i) / 2)) - (v + N) * ∑ i, log (V i i) := by
  rw [Finset.sum_comm]
  rw [Finset.mul_sum, ← Finset.sum_sub_distrib]
  refine Finset.sum_congr rfl fun j _ => ?_
  have : ∀ i, rowValue V v N i j = (if i = j then N / 2 * log 2 + lgamma ((v - j) / 2 + N / 2) -
      lgamma ((v - j) / 2) - (v - j + N) * log (V j j) else 0) + if i < j then -log (V j j) else 0 := by
    intro i
    unfold rowValue
    rcases lt_trichotomy j i with h | h | h
    · rw [if_pos h, if_neg h.ne', if_neg h.not_gt, add_zero]
    · subst h; simp
    · rw [if_neg h.not_gt, if_neg h.ne', if_neg h.ne, if_pos h, zero_add]
  rw [Finset.sum_congr rfl fun i _ => this i, Finset.sum_add_distrib, Finset.sum_ite_eq', if_pos (by simp),
    ← Finset.sum_filter, Finset.sum_const,
    show (Finset.univ.filter fun a => a < j) = Finset.Iio j by ext a; simp, Fin.card_Iio]
  simp only [nsmul_eq_mul]
  ring

/-! ## The upper triangular factor -/

theorem exists_upper {D : ℕ} (M : Matrix (Fin D) (Fin D) ℝ) (hM : M.PosDef) :
    ∃ V : Matrix (Fin D) (Fin D) ℝ, (∀ l j, j < l → V l j = 0) ∧ (∀ j, 0 < V j j) ∧ V * Vᵀ = M ∧
      log M.det = 2 * ∑ j, log (V j j) := by
  have hr : (M.submatrix Fin.rev Fin.rev).PosDef := by
    exact hM.submatrix Fin.rev_injective
  obtain ⟨L, hL⟩ := exists_cholesky _ hr
  have hmul := cholesky_mul _ _ (posDef_isSymm hr) hL
  have hdet := cholesky_det _ _ (posDef_isSymm hr) hL
  refine ⟨L.submatrix Fin.rev Fin.rev, fun l j h => hL.1 _ _ (Fin.rev_lt_rev.2 h), fun j => hL.2.1 _, ?_, ?_⟩
  · ext i j
    have := congrFun (congrFun hmul (Fin.rev i)) (Fin.rev j)
    simp only [Matrix.submatrix_apply, Fin.rev_rev] at this
    rw [← this, Matrix.mul_apply, Matrix.mul_apply]
    exact (Equiv.sum_comp Fin.revPerm (fun l => L (Fin.rev i) l * Lᵀ l (Fin.rev j)))
  · have : (M.submatrix Fin.rev Fin.rev).det = M.det := Matrix.det_submatrix_equiv_self Fin.revPerm M
    rw [← this, hdet]
    congr 1
    exact (Equiv.sum_comp Fin.revPerm (fun l => log (L l l))).symm

/-! ## Measurability -/

theorem measurable_det {α : Type} [MeasurableSpace α] {D : ℕ} (A : α → Matrix (Fin D) (Fin D) ℝ)
    (hA : ∀ i j, Measurable fun a => A a i j) : Measurable fun a => (A a).det := by
  simp_rw [Matrix.det_apply]
  exact Finset.measurable_sum _ fun σ _ =>
    (Finset.measurable_prod _ fun i _ => hA (σ i) i).const_smul (Equiv.Perm.sign σ)

theorem measurable_inv_entry {α : Type} [MeasurableSpace α] {D : ℕ} (A : α → Matrix (Fin D) (Fin D) ℝ)
    (hA : ∀ i j, Measurable fun a => A a i j) (i j : Fin D) : Measurable fun a => (A a)⁻¹ i j := by
  simp_rw [Matrix.inv_def, Matrix.smul_apply, Matrix.adjugate_apply, Ring.inverse_eq_inv']
  refine (measurable_det A hA).inv.mul (measurable_det _ fun i' j' => ?_)
  simp only [Matrix.updateRow_apply]
  split_ifs
  · exact measurable_const
  · exact hA i' j'

theorem measurable_draw {D : ℕ} (m : Fin D → ℝ) (k : ℝ) (L : Matrix (Fin D) (Fin D) ℝ) :
    Measurable (normalWishartDraw m k L) := by
  have hU : ∀ i j, Measurable fun p : (Fin D → Fin D → ℝ) × (Fin D → ℝ) =>
      (Matrix.of p.1 * Lᵀ) i j := by
    intro i j
    simp only [Matrix.mul_apply, Matrix.of_apply, Matrix.transpose_apply]
    exact Finset.measurable_sum _ fun l _ =>
      (measurable_pi_iff.1 (measurable_pi_iff.1 measurable_fst i) l).mul_const _
  refine Measurable.prodMk (measurable_pi_lambda _ fun i => ?_)
    (measurable_pi_lambda _ fun i => measurable_pi_lambda _ fun j => ?_)
  · refine measurable_const.add (Measurable.div_const ?_ _)
    simp only [Matrix.mulVec, dotProduct]
    exact Finset.measurable_sum _ fun l _ =>
      (measurable_inv_entry _ hU i l).mul ((measurable_pi_apply l).comp measurable_snd)
  · simp only [Matrix.mul_apply (M := (Matrix.of _ * Lᵀ)ᵀ), Matrix.transpose_apply (Matrix.of _ * Lᵀ)]
    exact Finset.measurable_sum _ fun l _ => (hU l i).mul (hU l j)

theorem measurable_precisionPDF {D : ℕ} (x : Fin D → ℝ) :
    Measurable fun θ : (Fin D → ℝ) × (Fin D → Fin D → ℝ) => precisionPDF θ.1 θ.2 x := by
  unfold precisionPDF
  have hS : ∀ i j, Measurable fun θ : (Fin D → ℝ) × (Fin D → Fin D → ℝ) => θ.2 i j := fun i j =>
    measurable_pi_iff.1 (measurable_pi_iff.1 measurable_snd i) j
  have hm : ∀ i, Measurable fun θ : (Fin D → ℝ) × (Fin D → Fin D → ℝ) => θ.1 i := fun i =>
    (measurable_pi_apply i).comp measurable_fst
  refine Measurable.ennreal_ofReal (Measurable.mul (Measurable.sqrt (Measurable.div_const
    (measurable_det (fun θ : (Fin D → ℝ) × (Fin D → Fin D → ℝ) => Matrix.of θ.2) hS) _)) (Measurable.exp
    (measurable_const.mul ?_)))
  exact Finset.measurable_sum _ fun i _ => Finset.measurable_sum _ fun j _ =>
    ((measurable_const.sub (hm i)).mul (hS i j)).mul (measurable_const.sub (hm j))

theorem bartlett_eq (D : ℕ) (v : ℝ) :
    bartlettLaw D v = Measure.pi fun i : Fin D => Measure.pi (entryLaw v i) := rfl

theorem normalWishartLaw_prob {D : ℕ} (m : Fin D → ℝ) (k : ℝ) (L : Matrix (Fin D) (Fin D) ℝ) (v : ℝ)
    (hv : (D : ℝ) - 1 < v) : IsProbabilityMeasure (normalWishartLaw m k L v) := by
  have := entryLaw_prob v hv
  unfold normalWishartLaw
  rw [bartlett_eq]
  exact Measure.isProbabilityMeasure_map (measurable_draw m k L).aemeasurable

/-! ## The density given Bartlett's factor -/

theorem precision_factor {D : ℕ} (m z x : Fin D → ℝ) (k : ℝ) (U : Matrix (Fin D) (Fin D) ℝ)
    (hU : U.det ≠ 0) :
    precisionPDF (fun i => m i + (U⁻¹ *ᵥ z) i / √k) (fun i j => (Uᵀ * U) i j) x =
      ENNReal.ofReal |U.det| *
        ∏ i, gaussianPDF (0 + z i / √(k * 1)) (1 / (1 : ℝ)).toNNReal ((U *ᵥ (x - m)) i) := by
  have hw : ∀ i, (U *ᵥ (x - fun i => m i + (U⁻¹ *ᵥ z) i / √k)) i =
      (U *ᵥ (x - m)) i - (0 + z i / √(k * 1)) := by
    intro i
    have e : (x - fun i => m i + (U⁻¹ *ᵥ z) i / √k) = (x - m) - (√k)⁻¹ • (U⁻¹ *ᵥ z) := by
      funext j
      simp only [Pi.sub_apply, Pi.smul_apply, smul_eq_mul]
      ring
    rw [e, Matrix.mulVec_sub, Matrix.mulVec_smul, Matrix.mulVec_mulVec,
      Matrix.mul_nonsing_inv _ (isUnit_iff_ne_zero.2 hU), Matrix.one_mulVec]
    simp only [Pi.sub_apply, Pi.smul_apply, smul_eq_mul, mul_one, zero_add]
    ring
  have hq : ∀ d : Fin D → ℝ, ∑ i, ∑ j, d i * (Uᵀ * U) i j * d j = ∑ i, ((U *ᵥ d) i) ^ 2 := by
    intro d
    have h1 : ∑ i, ((U *ᵥ d) i) ^ 2 = (U *ᵥ d) ⬝ᵥ (U *ᵥ d) := by
      simp [dotProduct, sq]
    have h2 : ∑ i, ∑ j, d i * (Uᵀ * U) i j * d j = d ⬝ᵥ ((Uᵀ * U) *ᵥ d) := by
      simp only [dotProduct, Matrix.mulVec, Finset.mul_sum, mul_assoc]
    rw [h1, h2, ← Matrix.mulVec_mulVec, Matrix.dotProduct_mulVec, Matrix.vecMul_transpose]
  unfold precisionPDF
  have hdet : (Matrix.of fun i j => (Uᵀ * U) i j).det = U.det ^ 2 := by
    rw [show (Matrix.of fun i j => (Uᵀ * U) i j) = Uᵀ * U from rfl, Matrix.det_mul, Matrix.det_transpose, sq]
  rw [hdet]
  have hq' := hq (x - fun i => m i + (U⁻¹ *ᵥ z) i / √k)
  simp only [Pi.sub_apply] at hq'
  rw [hq', Finset.prod_congr rfl fun i _ => gaussianPDF_prec _ _ _ one_pos,
    ← ENNReal.ofReal_prod_of_nonneg (fun i _ => by positivity), ← ENNReal.ofReal_mul (abs_nonneg _),
    Finset.prod_mul_distrib, Finset.prod_const, Finset.card_univ, Fintype.card_fin, ← exp_sum,
    ← Finset.mul_sum, ← mul_assoc]
  congr 2
  · rw [sqrt_div (sq_nonneg _), sqrt_sq_eq_abs, sqrt_div zero_le_one, sqrt_one, div_pow, one_pow,
      sqrt_eq_rpow, sqrt_eq_rpow, ← rpow_natCast, ← rpow_natCast, ← rpow_mul (by positivity),
      ← rpow_mul (by positivity), mul_comm (D : ℝ)]
    ring
  · congr 2
    exact Finset.sum_congr rfl fun i _ => by rw [hw i]

/-! ## The scatter of the data -/

/-- The scatter matrix left after completing the square. -/
noncomputable def scatter {D : ℕ} (k : ℝ) (es : List (Fin D → ℝ)) : Matrix (Fin D) (Fin D) ℝ :=
  Matrix.of fun i j => (es.map fun e => e i * e j).sum -
    (es.map fun e => e i).sum * (es.map fun e => e j).sum / (k + es.length)

theorem list_dot_sum {D : ℕ} (b : Fin D → ℝ) (es : List (Fin D → ℝ)) :
    (es.map fun e => ∑ j, b j * e j).sum = ∑ j, b j * (es.map fun e => e j).sum := by
  induction es with
  | nil => simp
  | cons e es ih => simp only [List.map_cons, List.sum_cons, ih, mul_add, Finset.sum_add_distrib]

theorem list_dot_sq {D : ℕ} (b : Fin D → ℝ) (es : List (Fin D → ℝ)) :
    (es.map fun e => (∑ j, b j * e j) ^ 2).sum =
      ∑ i, ∑ j, b i * (es.map fun e => e i * e j).sum * b j := by
  induction es with
  | nil => simp
  | cons e es ih =>
    simp only [List.map_cons, List.sum_cons, ih, mul_add, add_mul, Finset.sum_add_distrib]
    congr 1
    rw [sq, Finset.sum_mul_sum]
    exact Finset.sum_congr rfl fun i _ => Finset.sum_congr rfl fun j _ => by ring

theorem scatter_quad {D : ℕ} (k : ℝ) (hk : 0 < k) (es : List (Fin D → ℝ)) (b : Fin D → ℝ) :
    ∑ i, ∑ j, b i * scatter k es i j * b j = postSq 0 k (es.map fun e => ∑ j, b j * e j) := by
  have hn : k + es.length ≠ 0 := by positivity
  unfold postSq postMean scatter
  simp only [List.map_map, Function.comp_def, List.length_map, Matrix.of_apply]
  rw [list_dot_sq, list_dot_sum, mul_zero, zero_add]
  have : ∑ i, ∑ j, b i * ((es.map fun e => e i * e j).sum -
      (es.map fun e => e i).sum * (es.map fun e => e j).sum / (k + es.length)) * b j =
      ∑ i, ∑ j, b i * (es.map fun e => e i * e j).sum * b j -
        (∑ i, b i * (es.map fun e => e i).sum) * (∑ j, b j * (es.map fun e => e j).sum) /
          (k + es.length) := by
    rw [Finset.sum_mul_sum, Finset.sum_div, ← Finset.sum_sub_distrib]
    refine Finset.sum_congr rfl fun i _ => ?_
    rw [Finset.sum_div, ← Finset.sum_sub_distrib]
    exact Finset.sum_congr rfl fun j _ => by ring
  rw [this]
  field_simp
  ring

theorem scatter_posDef {D : ℕ} (k : ℝ) (hk : 0 < k) (es : List (Fin D → ℝ)) :
    (1 + scatter k es).PosDef := by
  refine Matrix.PosDef.of_dotProduct_mulVec_pos ?_ ?_
  · ext i j
    simp only [Matrix.conjTranspose_apply, star_trivial, Matrix.add_apply, scatter, Matrix.of_apply,
      Matrix.one_apply, eq_comm (a := j) (b := i)]
    congr 1
    rw [mul_comm (es.map fun e => e j).sum]
    simp only [mul_comm]
  · intro b hb
    have h := scatter_quad k hk es b
    have h2 : star b ⬝ᵥ ((1 + scatter k es) *ᵥ b) = ∑ i, b i ^ 2 +
        ∑ i, ∑ j, b i * scatter k es i j * b j := by
      rw [Matrix.add_mulVec, Matrix.one_mulVec, dotProduct_add]
      simp only [dotProduct, Matrix.mulVec, Finset.mul_sum, mul_assoc, sq, star_trivial]
    rw [h2, h]
    have h3 : 0 < ∑ i, b i ^ 2 := by
      obtain ⟨i, hi⟩ := Function.ne_iff.1 hb
      exact Finset.sum_pos' (fun i _ => sq_nonneg _) ⟨i, Finset.mem_univ _, by
        have : b i ≠ 0 := hi
        positivity⟩
    have := postSq_nonneg 0 k hk (es.map fun e => ∑ j, b j * e j)
    linarith

theorem upper_quad {D : ℕ} (k : ℝ) (hk : 0 < k) (es : List (Fin D → ℝ)) (V : Matrix (Fin D) (Fin D) ℝ)
    (hV : V * Vᵀ = 1 + scatter k es) (b : Fin D → ℝ) :
    ∑ j, ((∑ l, V l j * b l) ^ 2 - b j ^ 2) = postSq 0 k (es.map fun e => ∑ j, b j * e j) := by
  rw [← scatter_quad k hk es b]
  have h1 : ∑ j, (∑ l, V l j * b l) ^ 2 = (Vᵀ *ᵥ b) ⬝ᵥ (Vᵀ *ᵥ b) := by
    simp only [dotProduct, Matrix.mulVec, Matrix.transpose_apply, sq]
  have h2 : (Vᵀ *ᵥ b) ⬝ᵥ (Vᵀ *ᵥ b) = b ⬝ᵥ ((1 + scatter k es) *ᵥ b) := by
    rw [← hV, ← Matrix.mulVec_mulVec, Matrix.dotProduct_mulVec b, ← Matrix.mulVec_transpose]
  have h3 : b ⬝ᵥ ((1 + scatter k es) *ᵥ b) = ∑ i, b i ^ 2 +
        ∑ i, ∑ j, b i * scatter k es i j * b j := by
    rw [Matrix.add_mulVec, Matrix.one_mulVec, dotProduct_add]
    simp only [dotProduct, Matrix.mulVec, Finset.mul_sum, mul_assoc, sq]
  rw [Finset.sum_sub_distrib, h1, h2, h3]
  ring

/-! ## The marginal density -/

theorem prod_list_swap' {ι : Type} (D : ℕ) (f : Fin D → ι → ℝ≥0∞) (xs : List ι) :
    (xs.map fun x => ∏ i, f i x).prod = ∏ i, (xs.map fun x => f i x).prod := by
  induction xs with
  | nil => simp
  | cons x xs ih => simp [ih, Finset.prod_mul_distrib]

theorem bartlett_ae {D : ℕ} (v : ℝ) (hv : (D : ℝ) - 1 < v) :
    ∀ᵐ B ∂bartlettLaw D v, (Matrix.of B).det = ∏ i, B i i ∧ ∀ i : Fin D, 0 < B i i := by
  have hp := entryLaw_prob v hv
  rw [bartlett_eq]
  have hentry : ∀ (i j : Fin D) (P : ℝ → Prop), (∀ᵐ t ∂entryLaw v i j, P t) →
      ∀ᵐ B ∂Measure.pi fun i : Fin D => Measure.pi (entryLaw v i), P (B i j) := by
    intro i j P h
    have h1 : ∀ᵐ b ∂Measure.pi (entryLaw v i), P (b j) :=
      (Measure.tendsto_eval_ae_ae (μ := entryLaw v i) (i := j)).eventually h
    exact (Measure.tendsto_eval_ae_ae (μ := fun i : Fin D => Measure.pi (entryLaw v i))
      (i := i)).eventually h1
  have h0 : ∀ᵐ B ∂Measure.pi fun i : Fin D => Measure.pi (entryLaw v i), ∀ i j, j < i → B i j = 0 := by
    rw [ae_all_iff]
    intro i
    rw [ae_all_iff]
    intro j
    by_cases hl : j < i
    · have h1 : ∀ᵐ t ∂entryLaw v i j, t = 0 := by
        unfold entryLaw
        rw [if_pos hl, ae_dirac_eq]
        simp
      filter_upwards [hentry i j _ h1] with B hB _
      exact hB
    · exact Filter.Eventually.of_forall fun b h => absurd h hl
  have h1 : ∀ᵐ B ∂Measure.pi fun i : Fin D => Measure.pi (entryLaw v i), ∀ i, 0 < B i i := by
    rw [ae_all_iff]
    intro i
    refine hentry i i (fun t => 0 < t) ?_
    unfold entryLaw
    rw [if_neg (lt_irrefl i), if_pos rfl, ae_map_iff (by fun_prop) measurableSet_Ioi]
    filter_upwards [gamma_ae_pos ((v - i) / 2) (1 / 2)] with l hl
    exact sqrt_pos.2 hl
  filter_upwards [h0, h1] with B hB hB'
  refine ⟨?_, hB'⟩
  rw [Matrix.det_of_isUpperTriangular (M := Matrix.of B) (fun i j h => hB i j h)]
  rfl

/-- The marginal density of Gaussian data under a Normal-Wishart prior. -/
theorem nw_marginal {D : ℕ} (m : Fin D → ℝ) (k : ℝ) (L : Matrix (Fin D) (Fin D) ℝ) (v : ℝ) (hk : 0 < k)
    (hv : (D : ℝ) - 1 < v) (hL : L.det ≠ 0) (xs : List (Fin D → ℝ)) :
    ∫⁻ θ, (xs.map fun x => precisionPDF θ.1 θ.2 x).prod ∂normalWishartLaw m k L v =
    ENNReal.ofReal (exp (xs.length * log |L.det| - D * xs.length / 2 * log (2 * π)
      + D / 2 * (log k - log (k + xs.length))
      + ∑ i : Fin D, (xs.length / 2 * log 2 + lgamma ((v - i) / 2 + xs.length / 2) - lgamma ((v - i) / 2))
      - (v + xs.length) / 2 * log (1 + scatter k (xs.map fun x => Lᵀ *ᵥ (x - m))).det)) := by
  have hp := entryLaw_prob v hv
  set es := xs.map fun x => Lᵀ *ᵥ (x - m) with hes
  have hn : 0 < k + xs.length := by positivity
  have hlen : es.length = xs.length := by simp [hes]
  obtain ⟨V, hV, hpos, hmul, hdet⟩ := exists_upper _ (scatter_posDef k hk es)
  have hf : Measurable fun θ : (Fin D → ℝ) × (Fin D → Fin D → ℝ) =>
      (xs.map fun x => precisionPDF θ.1 θ.2 x).prod :=
    measurable_list_prod (fun x (θ : (Fin D → ℝ) × (Fin D → Fin D → ℝ)) => precisionPDF θ.1 θ.2 x)
      measurable_precisionPDF xs
  have hB : IsProbabilityMeasure (bartlettLaw D v) := by rw [bartlett_eq]; infer_instance
  unfold normalWishartLaw
  have hfd : Measurable fun a : (Fin D → Fin D → ℝ) × (Fin D → ℝ) => (xs.map fun x =>
      precisionPDF (normalWishartDraw m k L a).1 (normalWishartDraw m k L a).2 x).prod :=
    hf.comp (measurable_draw m k L)
  rw [lintegral_map hf (measurable_draw m k L), lintegral_prod _ hfd.aemeasurable]
  have hpt : (fun B : Fin D → Fin D → ℝ => ∫⁻ z : Fin D → ℝ,
        (xs.map fun x => precisionPDF (normalWishartDraw m k L (B, z)).1
          (normalWishartDraw m k L (B, z)).2 x).prod ∂Measure.pi fun _ : Fin D => gaussianReal 0 1)
      =ᵐ[bartlettLaw D v] fun B => ENNReal.ofReal (|L.det| ^ xs.length *
        (√(1 / (2 * π)) ^ xs.length * √(k / (k + xs.length))) ^ D) *
        ∏ i, ENNReal.ofReal (|B i i| ^ xs.length *
          exp (-(1/2) * ∑ j, ((∑ l, V l j * B i l) ^ 2 - B i j ^ 2))) := by
    filter_upwards [bartlett_ae v hv] with B hB
    have hU : (Matrix.of B * Lᵀ).det ≠ 0 := by
      rw [Matrix.det_mul, Matrix.det_transpose, hB.1]
      exact mul_ne_zero (Finset.prod_ne_zero_iff.2 fun i _ => (hB.2 i).ne') hL
    have e1 : ∀ z : Fin D → ℝ, (xs.map fun x => precisionPDF (normalWishartDraw m k L (B, z)).1
          (normalWishartDraw m k L (B, z)).2 x).prod =
        ENNReal.ofReal |(Matrix.of B * Lᵀ).det| ^ xs.length * ∏ i, ((xs.map fun x =>
          ((Matrix.of B * Lᵀ) *ᵥ (x - m)) i).map fun y =>
            gaussianPDF (0 + z i / √(k * 1)) (1 / (1 : ℝ)).toNNReal y).prod := by
      intro z
      simp_rw [List.map_map, Function.comp_def, ← prod_list_swap' D]
      have : ∀ x, precisionPDF (normalWishartDraw m k L (B, z)).1
          (normalWishartDraw m k L (B, z)).2 x = ENNReal.ofReal |(Matrix.of B * Lᵀ).det| *
        ∏ i, gaussianPDF (0 + z i / √(k * 1)) (1 / (1 : ℝ)).toNNReal (((Matrix.of B * Lᵀ) *ᵥ (x - m)) i) :=
        fun x => precision_factor m z x k _ hU
      simp_rw [this]
      rw [List.prod_map_mul]
      simp
    have hg : ∀ i : Fin D, Measurable fun mu : ℝ => ((xs.map fun x =>
          ((Matrix.of B * Lᵀ) *ᵥ (x - m)) i).map fun y =>
            gaussianPDF mu (1 / (1 : ℝ)).toNNReal y).prod := fun i =>
      measurable_list_prod (fun x (mu : ℝ) => gaussianPDF mu (1 / (1 : ℝ)).toNNReal x)
        (measurable_gaussianPDF_mean 1) _
    have hy : ∀ i, (xs.map fun x => ((Matrix.of B * Lᵀ) *ᵥ (x - m)) i) =
        es.map fun e => ∑ j, B i j * e j := by
      intro i
      rw [hes, List.map_map]
      refine List.map_congr_left fun x _ => ?_
      rw [← Matrix.mulVec_mulVec]
      rfl
    have hi : ∀ i : Fin D, ∫⁻ z, ((xs.map fun x =>
          ((Matrix.of B * Lᵀ) *ᵥ (x - m)) i).map fun y =>
            gaussianPDF (0 + z / √(k * 1)) (1 / (1 : ℝ)).toNNReal y).prod ∂gaussianReal 0 1 =
        ENNReal.ofReal (√(1 / (2 * π)) ^ xs.length * √(k / (k + xs.length)) *
          exp (-(1/2) * ∑ j, ((∑ l, V l j * B i l) ^ 2 - B i j ^ 2))) := by
      intro i
      have h1 := gauss_marginal 0 k 1 hk one_pos (xs.map fun x => ((Matrix.of B * Lᵀ) *ᵥ (x - m)) i)
      rw [← gaussian_affine 0 k 1 hk one_pos, lintegral_map (hg i) (by fun_prop)] at h1
      rw [h1, List.length_map, hy, upper_quad k hk es V hmul (B i)]
    simp_rw [e1]
    rw [lintegral_const_mul _ (by
      exact Finset.measurable_prod _ fun i _ => (hg i).comp (by fun_prop)),
      lintegral_pi_prod (fun _ : Fin D => gaussianReal 0 1) (fun _ => inferInstance)
        (fun i z => ((xs.map fun x =>
          ((Matrix.of B * Lᵀ) *ᵥ (x - m)) i).map fun y =>
            gaussianPDF (0 + z / √(k * 1)) (1 / (1 : ℝ)).toNNReal y).prod)
        (fun i => (hg i).comp (by fun_prop)),
      Finset.prod_congr rfl fun i _ => hi i, ← ENNReal.ofReal_prod_of_nonneg (fun i _ => by positivity),
      ← ENNReal.ofReal_prod_of_nonneg (fun i _ => by positivity), ← ENNReal.ofReal_pow (abs_nonneg _),
      ← ENNReal.ofReal_mul (by positivity), ← ENNReal.ofReal_mul (by positivity)]
    congr 1
    simp only [Finset.prod_mul_distrib, Finset.prod_const, Finset.card_univ, Fintype.card_fin,
      Matrix.det_mul, Matrix.det_transpose, hB.1, abs_mul, mul_pow, Finset.abs_prod, Finset.prod_pow]
    ring
  refine (lintegral_congr_ae hpt).trans ?_
  have hgm : ∀ i : Fin D, Measurable fun b : Fin D → ℝ => ENNReal.ofReal (|b i| ^ xs.length *
          exp (-(1/2) * ∑ j, ((∑ l, V l j * b l) ^ 2 - b j ^ 2))) := by
    intro i
    refine Measurable.ennreal_ofReal (Measurable.mul ?_ (Measurable.exp (measurable_const.mul ?_)))
    · exact ((measurable_pi_apply i).abs).pow_const _
    · refine Finset.measurable_sum _ fun j _ => Measurable.sub (Measurable.pow_const ?_ 2)
        ((measurable_pi_apply j).pow_const 2)
      exact Finset.measurable_sum _ fun l _ => measurable_const.mul (measurable_pi_apply l)
  rw [lintegral_const_mul _ (by
    exact Finset.measurable_prod _ fun i _ => (hgm i).comp (measurable_pi_apply i)), bartlett_eq,
    lintegral_pi_prod (fun i : Fin D => Measure.pi (entryLaw v i)) (fun _ => inferInstance)
      (fun i b => ENNReal.ofReal (|b i| ^ xs.length *
          exp (-(1/2) * ∑ j, ((∑ l, V l j * b l) ^ 2 - b j ^ 2)))) hgm,
    Finset.prod_congr rfl fun i _ => row_integral v hv V hV hpos xs.length i,
    ← ENNReal.ofReal_prod_of_nonneg (fun i _ => (exp_pos _).le), ← exp_sum, rowValue_sum,
    ← ENNReal.ofReal_mul (by positivity)]
  congr 1
  have hLp : 0 < |L.det| := abs_pos.2 hL
  have h2p : (0 : ℝ) < 2 * π := by positivity
  have hc : |L.det| ^ xs.length * (√(1 / (2 * π)) ^ xs.length * √(k / (k + xs.length))) ^ D =
      exp (xs.length * log |L.det| - D * xs.length / 2 * log (2 * π)
        + D / 2 * (log k - log (k + xs.length))) := by
    have s1 : √(1 / (2 * π)) = exp (-(1/2) * log (2 * π)) := by
      rw [sqrt_eq_rpow, rpow_def_of_pos (by positivity), one_div, log_inv]
      congr 1; ring
    have s2 : √(k / (k + xs.length)) = exp ((1/2) * (log k - log (k + xs.length))) := by
      rw [sqrt_eq_rpow, rpow_def_of_pos (by positivity), log_div hk.ne' hn.ne']
      congr 1; ring
    rw [s1, s2, mul_pow, ← exp_nat_mul, ← exp_nat_mul, ← exp_nat_mul]
    conv_lhs => rw [← exp_log hLp]
    rw [← exp_nat_mul, ← exp_add, ← exp_add]
    congr 1
    ring
  rw [hc, ← exp_add, hdet]
  congr 1
  ring

end Verif
