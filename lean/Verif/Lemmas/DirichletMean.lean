import Mathlib.Probability.Independence.Integration
import Verif.Lemmas.GammaSum

/-!
# The mean of normalised independent Gamma variables
-/

namespace Verif

open Real MeasureTheory ProbabilityTheory Set
open scoped ENNReal

/-- Weighting a Gamma law by its variable raises the shape by one. -/
theorem gamma_size_bias {c : ℝ} (hc : 0 < c) :
    (gammaMeasure c 1).withDensity ENNReal.ofReal = ENNReal.ofReal c • gammaMeasure (c + 1) 1 := by
  have hm : ∀ a : ℝ, Measurable (gammaPDF a 1) := fun a =>
    (measurable_gammaPDFReal a 1).ennreal_ofReal
  unfold gammaMeasure
  rw [← withDensity_mul _ (hm c) ENNReal.measurable_ofReal, ← withDensity_smul _ (hm (c + 1))]
  congr 1
  funext x
  simp only [Pi.mul_apply, Pi.smul_apply, smul_eq_mul, gammaPDF]
  have h0 : ∀ a : ℝ, 0 < a → 0 ≤ gammaPDFReal a 1 x := fun a ha =>
    gammaPDFReal_nonneg ha one_pos x
  rw [← ENNReal.ofReal_mul (h0 c hc), ← ENNReal.ofReal_mul hc.le]
  congr 1
  unfold gammaPDFReal
  rcases lt_trichotomy x 0 with hx | hx | hx
  · rw [if_neg (not_le.2 hx), if_neg (not_le.2 hx)]; simp
  · subst hx; simp [hc.ne']
  · rw [if_pos hx.le, if_pos hx.le, Real.Gamma_add_one hc.ne', one_rpow, one_rpow,
      add_sub_cancel_right]
    have : x ^ c = x ^ (c - 1) * x := by
      rw [← rpow_add_one hx.ne', sub_add_cancel]
    rw [this]
    have hg := (Real.Gamma_pos_of_pos hc).ne'
    field_simp

/-- The mean of the inverse of a Gamma variable of shape `s + 1`. -/
theorem gamma_inv {s : ℝ} (hs : 0 < s) :
    ENNReal.ofReal s * ∫⁻ z, ENNReal.ofReal (1 / z) ∂gammaMeasure (s + 1) 1 = 1 := by
  have hp := isProbabilityMeasure_gammaMeasure hs one_pos
  have hm : Measurable fun z : ℝ => ENNReal.ofReal (1 / z) :=
    (measurable_const.div measurable_id).ennreal_ofReal
  rw [← smul_eq_mul, ← lintegral_smul_measure, ← gamma_size_bias hs,
    lintegral_withDensity_eq_lintegral_mul _ ENNReal.measurable_ofReal hm]
  have : (ENNReal.ofReal * fun z : ℝ => ENNReal.ofReal (1 / z)) =ᵐ[gammaMeasure s 1] fun _ => 1 := by
    filter_upwards [gamma_ae_pos s 1] with z hz
    rw [Pi.mul_apply, ← ENNReal.ofReal_mul hz.le, mul_one_div_cancel hz.ne', ENNReal.ofReal_one]
  rw [lintegral_congr_ae this]
  simp

/-- Weighting independent Gamma variables by one of them raises its shape by one. -/
theorem gamma_pi_size_bias {D : ℕ} (c : Fin D → ℝ) (hc : ∀ i, 0 < c i) (i : Fin D) :
    (Measure.pi fun j => gammaMeasure (c j) 1).withDensity (fun g => ENNReal.ofReal (g i)) =
      ENNReal.ofReal (c i) •
        Measure.pi fun j => gammaMeasure (Function.update c i (c i + 1) j) 1 := by
  have hc' : ∀ j, 0 < Function.update c i (c i + 1) j := by
    intro j
    rcases eq_or_ne j i with rfl | h
    · simp; linarith [hc j]
    · simpa [h] using hc j
  have h1 : ∀ j, IsProbabilityMeasure (gammaMeasure (c j) 1) := fun j =>
    isProbabilityMeasure_gammaMeasure (hc j) one_pos
  have h2 : ∀ j, IsProbabilityMeasure (gammaMeasure (Function.update c i (c i + 1) j) 1) := fun j =>
    isProbabilityMeasure_gammaMeasure (hc' j) one_pos
  have hci : ENNReal.ofReal (c i) ≠ 0 := by simpa using hc i
  have hkey : Measure.pi (fun j => gammaMeasure (Function.update c i (c i + 1) j) 1) =
      (ENNReal.ofReal (c i))⁻¹ •
      (Measure.pi fun j => gammaMeasure (c j) 1).withDensity (fun g => ENNReal.ofReal (g i)) := by
    refine Measure.pi_eq fun s hs => ?_
    have hf : Measurable fun g : Fin D → ℝ => ENNReal.ofReal (g i) :=
      (measurable_pi_apply i).ennreal_ofReal
    have hbox : MeasurableSet (pi univ s) := MeasurableSet.univ_pi hs
    let X : Fin D → ℝ → ℝ≥0∞ := fun j =>
      (s j).indicator fun x => if j = i then ENNReal.ofReal x else 1
    have hX : ∀ j, Measurable (X j) := by
      intro j
      refine Measurable.indicator ?_ (hs j)
      by_cases h : j = i
      · simpa [h] using ENNReal.measurable_ofReal
      · simp [h]
    have hprod : ∀ g : Fin D → ℝ,
        (pi univ s).indicator (fun g => ENNReal.ofReal (g i)) g = ∏ j, X j (g j) := by
      intro g
      by_cases hg : g ∈ pi univ s
      · rw [indicator_of_mem hg]
        have : ∀ j, X j (g j) = if j = i then ENNReal.ofReal (g j) else 1 := fun j =>
          indicator_of_mem (hg j (mem_univ j)) _
        simp_rw [this]
        rw [Finset.prod_ite_eq' Finset.univ i fun j => ENNReal.ofReal (g j)]
        simp
      · rw [indicator_of_notMem hg]
        obtain ⟨j, hj⟩ : ∃ j, g j ∉ s j := by
          by_contra h
          push Not at h
          exact hg fun j _ => h j
        exact (Finset.prod_eq_zero (Finset.mem_univ j) (indicator_of_notMem hj _)).symm
    have hint : ∀ j, ∫⁻ g, X j (g j) ∂(Measure.pi fun j => gammaMeasure (c j) 1) =
        (if j = i then ENNReal.ofReal (c i) else 1) *
          gammaMeasure (Function.update c i (c i + 1) j) 1 (s j) := by
      intro j
      rw [(measurePreserving_eval (fun j => gammaMeasure (c j) 1) j).lintegral_comp (hX j),
        lintegral_indicator (hs j)]
      rcases eq_or_ne j i with rfl | h
      · simp only [if_true, Function.update_self]
        rw [← withDensity_apply _ (hs j), gamma_size_bias (hc j)]
        rfl
      · simp [h]
    rw [Measure.smul_apply, withDensity_apply _ hbox, ← lintegral_indicator hbox]
    simp_rw [hprod]
    rw [lintegral_prod_eq_prod_lintegral_of_indepFun Finset.univ
      (fun j (g : Fin D → ℝ) => X j (g j))
      (iIndepFun_pi (X := X) fun j => (hX j).aemeasurable)
      (fun j => (hX j).comp (measurable_pi_apply j))]
    simp_rw [hint]
    rw [Finset.prod_mul_distrib, Finset.prod_ite_eq' Finset.univ i fun _ => ENNReal.ofReal (c i),
      if_pos (Finset.mem_univ i), smul_eq_mul, ← mul_assoc,
      ENNReal.inv_mul_cancel hci ENNReal.ofReal_ne_top, one_mul]
  rw [hkey, smul_smul, ENNReal.mul_inv_cancel hci ENNReal.ofReal_ne_top, one_smul]

/-- The mean of a normalised Gamma variable. -/
theorem gamma_ratio_mean {D : ℕ} (c : Fin D → ℝ) (hc : ∀ i, 0 < c i) (i : Fin D) :
    ∫⁻ g, ENNReal.ofReal (g i / ∑ j, g j) ∂(Measure.pi fun j => gammaMeasure (c j) 1) =
      ENNReal.ofReal (c i / ∑ j, c j) := by
  have hD : 0 < D := i.pos
  have hne : Nonempty (Fin D) := ⟨i⟩
  have hs : 0 < ∑ i, c i := Finset.sum_pos (fun i _ => hc i) Finset.univ_nonempty
  have h1 : ∀ j, IsProbabilityMeasure (gammaMeasure (c j) 1) := fun j =>
    isProbabilityMeasure_gammaMeasure (hc j) one_pos
  have hc' : ∀ j, 0 < Function.update c i (c i + 1) j := by
    intro j
    rcases eq_or_ne j i with rfl | h
    · simp; linarith [hc j]
    · simpa [h] using hc j
  have hsum : Measurable fun g : Fin D → ℝ => ∑ j, g j :=
    Finset.measurable_sum _ fun j _ => measurable_pi_apply j
  have hi : Measurable fun g : Fin D → ℝ => ENNReal.ofReal (g i) :=
    (measurable_pi_apply i).ennreal_ofReal
  have hz : Measurable fun z : ℝ => ENNReal.ofReal (1 / z) :=
    (measurable_const.div measurable_id).ennreal_ofReal
  have hw : Measurable fun g : Fin D → ℝ => ENNReal.ofReal (1 / ∑ j, g j) := hz.comp hsum
  have hae : (fun g : Fin D → ℝ => ENNReal.ofReal (g i / ∑ j, g j))
      =ᵐ[Measure.pi fun j => gammaMeasure (c j) 1]
      (fun g => ENNReal.ofReal (g i)) * fun g => ENNReal.ofReal (1 / ∑ j, g j) := by
    have hpos : ∀ᵐ g ∂(Measure.pi fun j => gammaMeasure (c j) 1), 0 < g i :=
      (measurePreserving_eval (fun j => gammaMeasure (c j) 1) i).quasiMeasurePreserving.ae
        (gamma_ae_pos (c i) 1)
    filter_upwards [hpos] with g hg
    rw [Pi.mul_apply, ← ENNReal.ofReal_mul hg.le, mul_one_div]
  have hsum' : ∑ j, Function.update c i (c i + 1) j = (∑ j, c j) + 1 := by
    rw [Finset.sum_update_of_mem (Finset.mem_univ i), ← Finset.add_sum_erase _ c (Finset.mem_univ i),
      Finset.sdiff_singleton_eq_erase]
    ring
  rw [lintegral_congr_ae hae, ← lintegral_withDensity_eq_lintegral_mul _ hi hw,
    gamma_pi_size_bias c hc i, lintegral_smul_measure, smul_eq_mul,
    ← lintegral_map (f := fun z : ℝ => ENNReal.ofReal (1 / z)) hz hsum,
    gamma_sum hD _ hc' one_pos, hsum', div_eq_mul_inv, ENNReal.ofReal_mul (hc i).le]
  congr 1
  rw [ENNReal.ofReal_inv_of_pos hs]
  exact ENNReal.eq_inv_of_mul_eq_one_left (by rw [mul_comm]; exact gamma_inv hs)

end Verif
