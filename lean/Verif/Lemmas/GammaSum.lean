import Mathlib.Probability.Moments.ComplexMGF
import Mathlib.Probability.Independence.CharacteristicFunction
import Mathlib.Analysis.SpecialFunctions.ImproperIntegrals
import Verif.Lemmas.GammaExpect

/-!
# Sums of independent Gamma variables
-/

namespace Verif

open Real MeasureTheory ProbabilityTheory Set Filter

theorem gamma_exp_aux {a r t x : ℝ} : (r ^ a / Real.Gamma a * x ^ (a - 1) * exp (-(r * x))) *
    exp (t * x) = r ^ a / Real.Gamma a * (x ^ (a - 1) * exp (-((r - t) * x))) := by
  rw [mul_assoc, ← exp_add, show -(r * x) + t * x = -((r - t) * x) by ring, mul_assoc]

theorem gamma_mgf_lt {a r t : ℝ} (ha : 0 < a) (hr : 0 < r) (ht : t < r) :
    mgf id (gammaMeasure a r) t = (r / (r - t)) ^ a := by
  have hrt : 0 < r - t := sub_pos.2 ht
  have hG := (Real.Gamma_pos_of_pos ha).ne'
  unfold mgf
  simp only [id_eq]
  rw [integral_gammaMeasure ha hr]
  simp_rw [gamma_exp_aux]
  rw [integral_const_mul, Real.integral_rpow_mul_exp_neg_mul_Ioi ha hrt, one_div,
    inv_rpow hrt.le, div_rpow hr.le hrt.le]
  field_simp

theorem gamma_integrable_exp {a r t : ℝ} (ha : 0 < a) (hr : 0 < r) (ht : t < r) :
    Integrable (fun x => exp (t * x)) (gammaMeasure a r) := by
  by_contra h
  have h1 : mgf id (gammaMeasure a r) t = 0 := integral_undef h
  rw [gamma_mgf_lt ha hr ht] at h1
  exact (rpow_pos_of_pos (div_pos hr (sub_pos.2 ht)) a).ne' h1

theorem gamma_mgf_ge {a r t : ℝ} (ha : 0 < a) (hr : 0 < r) (ht : r ≤ t) :
    mgf id (gammaMeasure a r) t = 0 := by
  apply mgf_undef
  simp only [id_eq]
  rw [integrable_gammaMeasure_iff ha hr]
  intro h
  simp_rw [gamma_exp_aux] at h
  have hc : r ^ a / Real.Gamma a ≠ 0 :=
    (div_pos (rpow_pos_of_pos hr a) (Real.Gamma_pos_of_pos ha)).ne'
  have h2 : IntegrableOn (fun x : ℝ => x ^ (a - 1) * exp (-((r - t) * x))) (Ioi 0) := by
    have := h.const_mul (r ^ a / Real.Gamma a)⁻¹
    refine this.congr (ae_of_all _ fun x => ?_)
    simp only
    rw [← mul_assoc, inv_mul_cancel₀ hc, one_mul]
  refine not_integrableOn_Ioi_rpow (a - 1) (Integrable.mono' h2 ?_ ?_)
  · exact (measurable_id.pow_const _).aestronglyMeasurable
  · refine (ae_restrict_iff' measurableSet_Ioi).2 (ae_of_all _ fun x (hx : 0 < x) => ?_)
    have h3 : 0 ≤ x ^ (a - 1) := (rpow_pos_of_pos hx _).le
    rw [norm_eq_abs, abs_of_nonneg h3]
    refine le_mul_of_one_le_right h3 (one_le_exp ?_)
    nlinarith

/-- The sum of independent Gamma variables with the same rate is a Gamma variable. -/
theorem gamma_sum {D : ℕ} (hD : 0 < D) (c : Fin D → ℝ) (hc : ∀ i, 0 < c i) {r : ℝ} (hr : 0 < r) :
    (Measure.pi fun i => gammaMeasure (c i) r).map (fun g => ∑ i, g i) =
      gammaMeasure (∑ i, c i) r := by
  have : Nonempty (Fin D) := ⟨⟨0, hD⟩⟩
  have : ∀ i, IsProbabilityMeasure (gammaMeasure (c i) r) := fun i =>
    isProbabilityMeasure_gammaMeasure (hc i) hr
  have hs : 0 < ∑ i, c i := Finset.sum_pos (fun i _ => hc i) Finset.univ_nonempty
  have : IsProbabilityMeasure (gammaMeasure (∑ i, c i) r) :=
    isProbabilityMeasure_gammaMeasure hs hr
  have hmeas : Measurable fun g : Fin D → ℝ => ∑ i, g i :=
    Finset.measurable_sum _ fun i _ => measurable_pi_apply i
  have hind : iIndepFun (fun i (g : Fin D → ℝ) => g i) (Measure.pi fun i => gammaMeasure (c i) r) :=
    iIndepFun_pi (X := fun _ x => x) fun i => aemeasurable_id
  have hmgf : mgf id (gammaMeasure (∑ i, c i) r) =
      mgf (fun g : Fin D → ℝ => ∑ i, g i) (Measure.pi fun i => gammaMeasure (c i) r) := by
    funext t
    have h1 := hind.mgf_sum (fun i => measurable_pi_apply i) (t := t) Finset.univ
    have h2 : mgf (fun g : Fin D → ℝ => ∑ i, g i) (Measure.pi fun i => gammaMeasure (c i) r) t =
        ∏ i, mgf id (gammaMeasure (c i) r) t := by
      have e : (fun g : Fin D → ℝ => ∑ i, g i) = ∑ i, fun g : Fin D → ℝ => g i := by
        funext g; simp
      rw [e, h1]
      refine Finset.prod_congr rfl fun i _ => ?_
      unfold mgf
      exact integral_comp_eval (μ := fun i => gammaMeasure (c i) r) (i := i)
        (f := fun x => exp (t * x))
        (measurable_exp.comp (measurable_const_mul t)).aestronglyMeasurable
    rw [h2]
    rcases lt_or_ge t r with ht | ht
    · rw [gamma_mgf_lt hs hr ht]
      simp_rw [fun i => gamma_mgf_lt (hc i) hr ht]
      rw [rpow_sum_of_pos (div_pos hr (sub_pos.2 ht))]
    · rw [gamma_mgf_ge hs hr ht]
      simp_rw [fun i => gamma_mgf_ge (hc i) hr ht]
      rw [Finset.prod_const, Finset.card_univ, Fintype.card_fin, zero_pow hD.ne']
  have hstrip := eqOn_complexMGF_of_mgf hmgf
  have : IsProbabilityMeasure
      ((Measure.pi fun i => gammaMeasure (c i) r).map fun g => ∑ i, g i) :=
    Measure.isProbabilityMeasure_map hmeas.aemeasurable
  refine (Measure.ext_of_charFun ?_).symm
  funext t
  have h0 : (0 : ℝ) ∈ interior (integrableExpSet id (gammaMeasure (∑ i, c i) r)) := by
    rw [mem_interior]
    exact ⟨Iio r, fun t ht => gamma_integrable_exp hs hr ht, isOpen_Iio, hr⟩
  have h1 := hstrip (x := (t : ℂ) * Complex.I) (by simpa using h0)
  rw [complexMGF_mul_I aemeasurable_id, complexMGF_mul_I hmeas.aemeasurable, Measure.map_id] at h1
  exact h1

end Verif
