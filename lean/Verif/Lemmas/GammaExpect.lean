import Mathlib.Probability.Distributions.Gamma
import Mathlib.Probability.Distributions.Gaussian.Real
import Mathlib.Analysis.SpecialFunctions.Gamma.Deriv
import Mathlib.MeasureTheory.Integral.IntegralEqImproper
import Verif.Lemmas.Digamma

/-!
# Expectations under the Gamma distribution
-/

namespace Verif

open Real MeasureTheory ProbabilityTheory Set Filter Asymptotics Verif.Dists

/-- `∫ t^(a-1) ln t e^(-t)` converges and is `ψ(a) Γ(a)`. -/
theorem gamma_log_integral {a : ℝ} (ha : 0 < a) :
    IntegrableOn (fun t : ℝ => t ^ (a - 1) * (log t * exp (-t))) (Ioi 0) ∧
    ∫ t in Ioi (0 : ℝ), t ^ (a - 1) * (log t * exp (-t)) = digamma a * Real.Gamma a := by
  have hm : MellinConvergent (fun t : ℝ => (Real.log t : ℝ) • ((Real.exp (-t) : ℝ) : ℂ)) (a : ℂ) := by
    refine (mellin_hasDerivAt_of_isBigO_rpow (E := ℂ) (f := fun x => ((Real.exp (-x) : ℝ) : ℂ))
      (a := a + 1) (b := 0) ?_ ?_ (by simp) ?_ (by simpa using ha)).1
    · refine (Continuous.continuousOn ?_).locallyIntegrableOn measurableSet_Ioi
      exact Complex.continuous_ofReal.comp (Real.continuous_exp.comp continuous_neg)
    · rw [← isBigO_norm_left]
      simp_rw [Complex.norm_real, isBigO_norm_left]
      simpa only [neg_one_mul] using (isLittleO_exp_neg_mul_rpow_atTop zero_lt_one _).isBigO
    · simp_rw [neg_zero, rpow_zero]
      refine isBigO_const_of_tendsto (?_ : Tendsto _ _ (nhds (1 : ℂ))) one_ne_zero
      rw [(by simp : (1 : ℂ) = ((Real.exp (-0) : ℝ) : ℂ))]
      exact (Complex.continuous_ofReal.comp
        (Real.continuous_exp.comp continuous_neg)).continuousWithinAt
  have hc : ∀ t ∈ Ioi (0 : ℝ), (t : ℂ) ^ ((a : ℂ) - 1) * ((Real.log t : ℂ) * (Real.exp (-t) : ℝ)) =
      ((t ^ (a - 1) * (log t * exp (-t)) : ℝ) : ℂ) := by
    intro t ht
    push_cast
    rw [Complex.ofReal_cpow (le_of_lt ht)]
    push_cast
    rfl
  have hint : IntegrableOn (fun t : ℝ => t ^ (a - 1) * (log t * exp (-t))) (Ioi 0) := by
    have h1 : IntegrableOn (fun t : ℝ => ((t ^ (a - 1) * (log t * exp (-t)) : ℝ) : ℂ)) (Ioi 0) := by
      refine (integrableOn_congr_fun ?_ measurableSet_Ioi).1 hm
      intro t ht
      show (t : ℂ) ^ ((a : ℂ) - 1) • (Real.log t • ((Real.exp (-t) : ℝ) : ℂ)) =
        ((t ^ (a - 1) * (log t * exp (-t)) : ℝ) : ℂ)
      rw [← hc t ht, smul_eq_mul, Complex.real_smul]
    have h2 := h1.re
    exact h2
  refine ⟨hint, ?_⟩
  have hd := Complex.hasDerivAt_GammaIntegral (s := (a : ℂ)) (by simpa using ha)
  have hI : ∫ t : ℝ in Ioi 0, (t : ℂ) ^ ((a : ℂ) - 1) * ((Real.log t : ℂ) * (Real.exp (-t) : ℝ)) =
      ((∫ t in Ioi (0 : ℝ), t ^ (a - 1) * (log t * exp (-t)) : ℝ) : ℂ) := by
    rw [setIntegral_congr_fun measurableSet_Ioi hc]
    exact integral_ofReal
  rw [hI] at hd
  have hd2 : HasDerivAt Complex.Gamma
      ((∫ t in Ioi (0 : ℝ), t ^ (a - 1) * (log t * exp (-t)) : ℝ) : ℂ) (a : ℂ) := by
    refine hd.congr_of_eventuallyEq ?_
    have : {z : ℂ | 0 < z.re} ∈ nhds (a : ℂ) :=
      (isOpen_lt continuous_const Complex.continuous_re).mem_nhds (by simpa using ha)
    filter_upwards [this] with z hz using Complex.Gamma_eq_integral hz
  have hd3 := hd2.real_of_complex
  simp only [Complex.ofReal_re, Complex.Gamma_ofReal] at hd3
  have hG := (lgamma_hasDerivAt ha)
  have hG2 : HasDerivAt lgamma
      ((∫ t in Ioi (0 : ℝ), t ^ (a - 1) * (log t * exp (-t))) / Real.Gamma a) a :=
    hd3.log (Real.Gamma_pos_of_pos ha).ne'
  have := hG.unique hG2
  rw [this, div_mul_cancel₀ _ (Real.Gamma_pos_of_pos ha).ne']

/-- Expectation under the Gamma distribution. -/
theorem integral_gammaMeasure {a r : ℝ} (ha : 0 < a) (hr : 0 < r) (f : ℝ → ℝ) :
    ∫ x, f x ∂gammaMeasure a r =
      ∫ x in Ioi (0 : ℝ), (r ^ a / Real.Gamma a * x ^ (a - 1) * exp (-(r * x))) * f x := by
  unfold gammaMeasure gammaPDF
  rw [integral_withDensity_eq_integral_toReal_smul
    ((measurable_gammaPDFReal a r).ennreal_ofReal) (ae_of_all _ fun _ => ENNReal.ofReal_lt_top)]
  have : ∀ x, (ENNReal.ofReal (gammaPDFReal a r x)).toReal • f x =
      (Ici (0 : ℝ)).indicator
        (fun x => (r ^ a / Real.Gamma a * x ^ (a - 1) * exp (-(r * x))) * f x) x := by
    intro x
    rw [ENNReal.toReal_ofReal (gammaPDFReal_nonneg ha hr x), smul_eq_mul]
    unfold gammaPDFReal
    by_cases hx : 0 ≤ x
    · rw [if_pos hx, indicator_of_mem (mem_Ici.2 hx)]
    · rw [if_neg hx, indicator_of_notMem (by simpa using hx), zero_mul]
  simp_rw [this]
  rw [integral_indicator measurableSet_Ici, integral_Ici_eq_integral_Ioi]

theorem integrable_gammaMeasure_iff {a r : ℝ} (ha : 0 < a) (hr : 0 < r) (f : ℝ → ℝ) :
    Integrable f (gammaMeasure a r) ↔
      IntegrableOn (fun x => (r ^ a / Real.Gamma a * x ^ (a - 1) * exp (-(r * x))) * f x)
        (Ioi 0) := by
  unfold gammaMeasure gammaPDF
  rw [integrable_withDensity_iff_integrable_smul'
    ((measurable_gammaPDFReal a r).ennreal_ofReal) (ae_of_all _ fun _ => ENNReal.ofReal_lt_top)]
  have : (fun x => (ENNReal.ofReal (gammaPDFReal a r x)).toReal • f x) =
      (Ici (0 : ℝ)).indicator
        (fun x => (r ^ a / Real.Gamma a * x ^ (a - 1) * exp (-(r * x))) * f x) := by
    funext x
    rw [ENNReal.toReal_ofReal (gammaPDFReal_nonneg ha hr x), smul_eq_mul]
    unfold gammaPDFReal
    by_cases hx : 0 ≤ x
    · rw [if_pos hx, indicator_of_mem (mem_Ici.2 hx)]
    · rw [if_neg hx, indicator_of_notMem (by simpa using hx), zero_mul]
  rw [this, integrable_indicator_iff measurableSet_Ici, integrableOn_Ici_iff_integrableOn_Ioi]

/-- `E[x] = a / b`. -/
theorem gamma_mean {a r : ℝ} (ha : 0 < a) (hr : 0 < r) :
    ∫ x, x ∂gammaMeasure a r = a / r := by
  rw [integral_gammaMeasure ha hr]
  have h : ∀ x ∈ Ioi (0 : ℝ), (r ^ a / Real.Gamma a * x ^ (a - 1) * exp (-(r * x))) * x =
      r ^ a / Real.Gamma a * (x ^ (a + 1 - 1) * exp (-(r * x))) := by
    intro x hx
    rw [add_sub_right_comm, rpow_add_one (ne_of_gt hx)]
    ring
  rw [setIntegral_congr_fun measurableSet_Ioi h, integral_const_mul,
    Real.integral_rpow_mul_exp_neg_mul_Ioi (by positivity) hr, Real.Gamma_add_one ha.ne',
    one_div, inv_rpow hr.le, rpow_add_one hr.ne']
  have := (Real.Gamma_pos_of_pos ha).ne'
  have := (rpow_pos_of_pos hr a).ne'
  field_simp

theorem gamma_log_aux {a r : ℝ} (hr : 0 < r) (x : ℝ) (hx : x ∈ Ioi (0 : ℝ)) :
    (r ^ a / Real.Gamma a * x ^ (a - 1) * exp (-(r * x))) * log x =
    r / Real.Gamma a * ((r * x) ^ (a - 1) * (log (r * x) * exp (-(r * x))) -
      log r * (exp (-(r * x)) * (r * x) ^ (a - 1))) := by
  have hx' : 0 < x := hx
  rw [mul_rpow hr.le hx'.le, log_mul hr.ne' hx'.ne']
  have : r ^ a = r * r ^ (a - 1) := by
    rw [rpow_sub_one hr.ne']; field_simp
  rw [this]
  ring

/-- `E[ln x] = ψ(a) - ln b`. -/
theorem gamma_log {a r : ℝ} (ha : 0 < a) (hr : 0 < r) :
    Integrable log (gammaMeasure a r) ∧ ∫ x, log x ∂gammaMeasure a r = digamma a - log r := by
  obtain ⟨h1, h2⟩ := gamma_log_integral ha
  have h3 := Real.GammaIntegral_convergent ha
  let g : ℝ → ℝ := fun t => t ^ (a - 1) * (log t * exp (-t)) - log r * (exp (-t) * t ^ (a - 1))
  have hg : IntegrableOn g (Ioi 0) := h1.sub (h3.const_mul _)
  have hgi : ∫ t in Ioi (0 : ℝ), g t = (digamma a - log r) * Real.Gamma a := by
    rw [integral_sub h1 (h3.const_mul _), h2, integral_const_mul, ← Real.Gamma_eq_integral ha]
    ring
  have hgc : IntegrableOn (fun x => g (r * x)) (Ioi 0) := by
    have := (integrableOn_Ioi_comp_mul_left_iff g 0 hr).2 (by simpa using hg)
    exact this
  constructor
  · rw [integrable_gammaMeasure_iff ha hr, integrableOn_congr_fun (gamma_log_aux hr) measurableSet_Ioi]
    exact hgc.const_mul _
  · rw [integral_gammaMeasure ha hr, setIntegral_congr_fun measurableSet_Ioi (gamma_log_aux hr),
      integral_const_mul]
    have := integral_comp_mul_left_Ioi g 0 hr
    rw [mul_zero, hgi] at this
    have h4 := (Real.Gamma_pos_of_pos ha).ne'
    calc r / Real.Gamma a * ∫ x in Ioi (0 : ℝ), g (r * x)
        = r / Real.Gamma a * (r⁻¹ • ((digamma a - log r) * Real.Gamma a)) := by rw [this]
      _ = digamma a - log r := by rw [smul_eq_mul]; field_simp

theorem gamma_integrable_id {a r : ℝ} (ha : 0 < a) (hr : 0 < r) :
    Integrable (fun x => x) (gammaMeasure a r) := by
  by_contra h
  have := integral_undef h
  rw [gamma_mean ha hr] at this
  exact (div_pos ha hr).ne' this

/-- Almost surely positive. -/
theorem gamma_ae_pos (a r : ℝ) : ∀ᵐ x ∂gammaMeasure a r, 0 < x := by
  unfold gammaMeasure
  rw [ae_withDensity_iff (f := gammaPDF a r) ((measurable_gammaPDFReal a r).ennreal_ofReal)]
  have h0 : ∀ᵐ x : ℝ, x ≠ 0 := by
    rw [ae_iff]; simp
  filter_upwards [h0] with x hx h
  by_contra hc
  exact h (gammaPDF_of_neg (lt_of_le_of_ne (not_lt.1 hc) hx))

/-- Second moment of a normal distribution. -/
theorem normal_second (m : ℝ) (v : NNReal) : ∫ x, x ^ 2 ∂gaussianReal m v = v + m ^ 2 := by
  have h := variance_eq_sub (memLp_id_gaussianReal (μ := m) (v := v) 2)
  rw [variance_id_gaussianReal] at h
  have e1 : ∫ x, (id x : ℝ) ∂gaussianReal m v = m := integral_id_gaussianReal
  simp only [Pi.pow_apply, id_eq] at h
  rw [show (∫ x, x ∂gaussianReal m v) = m from integral_id_gaussianReal] at h
  linarith

end Verif
