import Verif.Model.ProbLayers
import Verif.Spec.ProbLayers
import Mathlib.Probability.Distributions.Gaussian.Real
import Mathlib.MeasureTheory.Integral.Pi

namespace Verif.ProbLayers

open MeasureTheory ProbabilityTheory Nnet ProbLayersSpec

open scoped ENNReal NNReal

variable {I D : ℕ}

theorem exp_diagLlh (m v : Fin D → ℝ) (hv : ∀ d, 0 < v d) (x : Fin D → ℝ) :
    Real.exp (diagLlh x (m, v)) = ∏ d, gaussianPDFReal (m d) (v d).toNNReal (x d) := by
  have h : ∀ d, gaussianPDFReal (m d) (v d).toNNReal (x d) =
      Real.exp (-(1 / 2) * (Real.log (v d) + (x d - m d) ^ 2 / v d + Real.log (2 * Real.pi))) := by
    intro d
    have h2 : (0 : ℝ) < 2 * Real.pi * v d := by have := hv d; positivity
    unfold gaussianPDFReal
    rw [Real.coe_toNNReal _ (hv d).le, Real.sqrt_eq_rpow, ← Real.rpow_neg h2.le, Real.rpow_def_of_pos h2,
      ← Real.exp_add, Real.log_mul (by positivity) (hv d).ne']
    congr 1
    have := (hv d).ne'
    field_simp
    ring
  rw [Finset.prod_congr rfl fun d _ => h d, ← Real.exp_sum]
  congr 1
  unfold diagLlh
  dsimp only
  rw [← Finset.mul_sum, Finset.sum_add_distrib, Finset.sum_add_distrib]
  simp

theorem pi_gaussian_withDensity (m v : Fin D → ℝ) (hv : ∀ d, 0 < v d) :
    diagGaussian m v = volume.withDensity fun x => ENNReal.ofReal (Real.exp (diagLlh x (m, v))) := by
  have hv' : ∀ d, (v d).toNNReal ≠ 0 := fun d => by simpa using hv d
  unfold diagGaussian
  refine Measure.pi_eq fun s hs => ?_
  have hint : Integrable fun x : Fin D → ℝ => ∏ d, gaussianPDFReal (m d) (v d).toNNReal (x d) :=
    Integrable.fintype_prod (f := fun d x => gaussianPDFReal (m d) (v d).toNNReal x)
      fun d => integrable_gaussianPDFReal _ _
  simp only [exp_diagLlh m v hv]
  rw [withDensity_apply _ (MeasurableSet.univ_pi hs),
    ← ofReal_integral_eq_lintegral_ofReal hint.integrableOn
      (Filter.Eventually.of_forall fun x => Finset.prod_nonneg fun d _ => gaussianPDFReal_nonneg _ _ _),
    ← integral_indicator (MeasurableSet.univ_pi hs)]
  have hind : (Set.univ.pi s).indicator (fun x : Fin D → ℝ => ∏ d, gaussianPDFReal (m d) (v d).toNNReal (x d)) =
      fun x => ∏ d, (s d).indicator (gaussianPDFReal (m d) (v d).toNNReal) (x d) := by
    funext x
    by_cases hx : x ∈ Set.univ.pi s
    · rw [Set.indicator_of_mem hx]
      exact Finset.prod_congr rfl fun d _ => (Set.indicator_of_mem (hx d trivial) _).symm
    · rw [Set.indicator_of_notMem hx]
      have : ∃ d, x d ∉ s d := by
        by_contra hc
        push Not at hc
        exact hx fun d _ => hc d
      obtain ⟨d, hd⟩ := this
      exact (Finset.prod_eq_zero (Finset.mem_univ d) (Set.indicator_of_notMem hd _)).symm
  rw [hind, integral_fintype_prod_volume_eq_prod, ENNReal.ofReal_prod_of_nonneg fun d _ =>
    integral_nonneg fun x => Set.indicator_nonneg (fun _ _ => gaussianPDFReal_nonneg _ _ _) _]
  refine Finset.prod_congr rfl fun d _ => ?_
  rw [integral_indicator (hs d), gaussianReal_apply_eq_integral _ (hv' d)]

/-- Reparametrisation: standard normal noise, scaled and shifted. -/
theorem map_noise (m v : Fin D → ℝ) (hv : ∀ d, 0 < v d) :
    (diagGaussian (0 : Fin D → ℝ) 1).map (fun z d => m d + Real.sqrt (v d) * z d) = diagGaussian m v := by
  unfold diagGaussian
  rw [Measure.pi_map_pi (f := fun d z => m d + Real.sqrt (v d) * z) (fun d => by fun_prop)]
  congr 1
  funext d
  have h1 : (fun z : ℝ => m d + Real.sqrt (v d) * z) = (fun z => m d + z) ∘ fun z => Real.sqrt (v d) * z := rfl
  rw [h1, ← Measure.map_map (by fun_prop) (by fun_prop), gaussianReal_map_const_mul, gaussianReal_map_const_add]
  congr 1
  · simp
  · ext
    simp only [Pi.one_apply, Real.toNNReal_one, mul_one, NNReal.coe_mk]
    rw [Real.sq_sqrt (hv d).le, Real.coe_toNNReal _ (hv d).le]

instance (m v : Fin D → ℝ) : IsProbabilityMeasure (diagGaussian m v) := by unfold diagGaussian; infer_instance

theorem diagGaussian_mean (m v : Fin D → ℝ) (d : Fin D) : ∫ x, x d ∂diagGaussian m v = m d := by
  have h := (measurePreserving_eval (μ := fun d => gaussianReal (m d) (v d).toNNReal) d)
  have h2 := integral_map (μ := diagGaussian m v) (φ := Function.eval d) (f := fun y : ℝ => y)
    h.measurable.aemeasurable (by fun_prop)
  unfold diagGaussian at h2 ⊢
  rw [h.map_eq] at h2
  rw [← integral_id_gaussianReal (μ := m d) (v := (v d).toNNReal), h2]

theorem softplus_pos (x : ℝ) : 0 < softplus x := by
  unfold softplus
  apply Real.log_pos
  linarith [Real.exp_pos x]

theorem nonlinearity_pos (x : ℝ) : 0 < nonlinearity none x := softplus_pos x

/-- The likelihood is greatest at the mean, and only there. -/
theorem diagLlh_mode (m v : Fin D → ℝ) (hv : ∀ d, 0 < v d) (x : Fin D → ℝ) :
    diagLlh x (m, v) ≤ diagLlh m (m, v) ∧ (diagLlh x (m, v) = diagLlh m (m, v) ↔ x = m) := by
  have h0 : ∑ d, (m d - m d) ^ 2 / v d = 0 := by simp
  have hn : 0 ≤ ∑ d, (x d - m d) ^ 2 / v d :=
    Finset.sum_nonneg fun d _ => div_nonneg (sq_nonneg _) (hv d).le
  unfold diagLlh
  dsimp only
  rw [h0]
  refine ⟨by linarith, ?_, ?_⟩
  · intro h
    have hz : ∑ d, (x d - m d) ^ 2 / v d = 0 := by linarith
    rw [Finset.sum_eq_zero_iff_of_nonneg fun d _ => div_nonneg (sq_nonneg _) (hv d).le] at hz
    funext d
    have := hz d (Finset.mem_univ d)
    rw [div_eq_zero_iff, or_iff_left (hv d).ne', sq_eq_zero_iff] at this
    linarith
  · rintro rfl
    rw [h0]

theorem idLlh_eq (m x : Fin D → ℝ) : idLlh x m = diagLlh x (m, fun _ => 1) := by
  unfold idLlh diagLlh
  simp

theorem exp_bernLlh (m : Fin D → ℝ) (hm : ∀ d, 0 ≤ m d ∧ m d ≤ 1) (x : Fin D → Bool) :
    Real.exp (bernLlh (fun d => if x d then 1 else 0) m) =
      ∏ d, if x d then 1e-6 + m d else 1e-6 + 1 - m d := by
  unfold bernLlh
  rw [Real.exp_sum]
  refine Finset.prod_congr rfl fun d _ => ?_
  obtain ⟨h1, h2⟩ := hm d
  cases hx : x d
  · simp only [hx, Bool.false_eq_true, if_false, zero_mul, sub_zero, one_mul, zero_add]
    rw [Real.exp_log (by norm_num; linarith)]
  · simp only [hx, if_true, one_mul, sub_self, zero_mul, add_zero]
    rw [Real.exp_log (by norm_num; linarith)]

theorem sum_prod_bool (a b : Fin D → ℝ) :
    ∑ x : Fin D → Bool, ∏ d, (if x d then a d else b d) = ∏ d, (a d + b d) := by
  rw [Finset.prod_congr rfl fun d _ => (by simp : a d + b d = ∑ c : Bool, if c then a d else b d),
    Finset.prod_univ_sum]
  exact Finset.sum_congr (Fintype.piFinset_univ (β := fun _ : Fin D => Bool)).symm fun x _ => rfl

theorem sigmoid_bounds (x : ℝ) : 0 < sigmoid x ∧ sigmoid x < 1 := by
  unfold sigmoid
  have := Real.exp_pos (-x)
  constructor
  · positivity
  · rw [div_lt_one (by positivity)]; linarith

end Verif.ProbLayers
