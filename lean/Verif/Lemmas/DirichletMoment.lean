import Verif.Spec.Evidence
import Verif.Lemmas.DirichletMean
import Verif.Lemmas.NormalGammaMarginal

/-!
# Moments of the Dirichlet law: the probability of a sequence of categories
-/

namespace Verif

open Real MeasureTheory ProbabilityTheory Set Verif.DistSpec
open scoped ENNReal

/-- The concentrations after observing the categories `ks`. -/
noncomputable def bump {D : ℕ} (c : Fin D → ℝ) (ks : List (Fin D)) (i : Fin D) : ℝ :=
  c i + (ks.count i : ℝ)

theorem bump_pos {D : ℕ} (c : Fin D → ℝ) (hc : ∀ i, 0 < c i) (ks : List (Fin D)) (i : Fin D) :
    0 < bump c ks i := by
  unfold bump
  have := hc i
  positivity

theorem bump_cons {D : ℕ} (c : Fin D → ℝ) (k : Fin D) (ks : List (Fin D)) :
    bump c (k :: ks) = bump (Function.update c k (c k + 1)) ks := by
  funext i
  unfold bump
  rcases eq_or_ne i k with rfl | h
  · simp; ring
  · simp [h, List.count_cons, Ne.symm h]

theorem sum_bump {D : ℕ} (c : Fin D → ℝ) (ks : List (Fin D)) :
    ∑ i, bump c ks i = ∑ i, c i + ks.length := by
  unfold bump
  rw [Finset.sum_add_distrib]
  congr 1
  rw [← Nat.cast_sum]
  congr 1
  induction ks with
  | nil => simp
  | cons k ks ih =>
    simp only [List.count_cons, Finset.sum_add_distrib, ih, List.length_cons]
    simp

theorem gamma_pi_moment {D : ℕ} (h : ℝ → ℝ≥0∞) (hh : Measurable h) (ks : List (Fin D))
    (c : Fin D → ℝ) (hc : ∀ i, 0 < c i) :
    ∫⁻ g, (ks.map fun k => ENNReal.ofReal (g k)).prod * h (∑ j, g j)
      ∂(Measure.pi fun j => gammaMeasure (c j) 1) =
    ENNReal.ofReal (∏ i, Real.Gamma (bump c ks i) / Real.Gamma (c i)) *
      ∫⁻ g, h (∑ j, g j) ∂(Measure.pi fun j => gammaMeasure (bump c ks j) 1) := by
  induction ks generalizing c with
  | nil =>
    have hb : bump c [] = c := by funext i; simp [bump]
    have h1 : ∏ i, Real.Gamma (bump c [] i) / Real.Gamma (c i) = 1 := by
      rw [hb]
      exact Finset.prod_eq_one fun i _ => div_self (Real.Gamma_pos_of_pos (hc i)).ne'
    rw [h1, hb]
    simp
  | cons k ks ih =>
    have hc' : ∀ j, 0 < Function.update c k (c k + 1) j := by
      intro j
      rcases eq_or_ne j k with rfl | h
      · simp; linarith [hc j]
      · simpa [h] using hc j
    have hk : Measurable fun g : Fin D → ℝ => ENNReal.ofReal (g k) :=
      (measurable_pi_apply k).ennreal_ofReal
    have hsum : Measurable fun g : Fin D → ℝ => ∑ j, g j :=
      Finset.measurable_sum _ fun j _ => measurable_pi_apply j
    have hrest : Measurable fun g : Fin D → ℝ =>
        (ks.map fun k => ENNReal.ofReal (g k)).prod * h (∑ j, g j) :=
      (measurable_list_prod (fun k (g : Fin D → ℝ) => ENNReal.ofReal (g k))
        (fun k => (measurable_pi_apply k).ennreal_ofReal) ks).mul (hh.comp hsum)
    have e : ∀ g : Fin D → ℝ, ((k :: ks).map fun k => ENNReal.ofReal (g k)).prod * h (∑ j, g j) =
        ((fun g : Fin D → ℝ => ENNReal.ofReal (g k)) * fun g : Fin D → ℝ =>
          (ks.map fun k => ENNReal.ofReal (g k)).prod * h (∑ j, g j)) g := by
      intro g
      rw [List.map_cons, List.prod_cons, Pi.mul_apply, mul_assoc]
    simp_rw [e]
    rw [← lintegral_withDensity_eq_lintegral_mul _ hk hrest, gamma_pi_size_bias c hc k,
      lintegral_smul_measure, smul_eq_mul, ih _ hc', ← bump_cons, ← mul_assoc,
      ← ENNReal.ofReal_mul (hc k).le]
    congr 2
    rw [Finset.prod_div_distrib, Finset.prod_div_distrib]
    have h1 : ∏ i, Real.Gamma (Function.update c k (c k + 1) i) = c k * ∏ i, Real.Gamma (c i) := by
      rw [← Finset.mul_prod_erase _ _ (Finset.mem_univ k),
        ← Finset.mul_prod_erase _ (fun i => Real.Gamma (c i)) (Finset.mem_univ k)]
      rw [Function.update_self, Real.Gamma_add_one (hc k).ne']
      rw [Finset.prod_congr rfl fun i hi => by
        rw [Function.update_of_ne (Finset.ne_of_mem_erase hi)]]
      ring
    rw [h1]
    have h2 : ∏ i, Real.Gamma (c i) ≠ 0 :=
      Finset.prod_ne_zero_iff.2 fun i _ => (Real.Gamma_pos_of_pos (hc i)).ne'
    have h3 := (hc k).ne'
    field_simp

theorem gamma_inv_moment {s : ℝ} (hs : 0 < s) (n : ℕ) :
    ∫⁻ z, ENNReal.ofReal (1 / z) ^ n ∂gammaMeasure (s + n) 1 =
      ENNReal.ofReal (Real.Gamma s / Real.Gamma (s + n)) := by
  induction n with
  | zero =>
    have hp := isProbabilityMeasure_gammaMeasure hs one_pos
    have hG := (Real.Gamma_pos_of_pos hs).ne'
    simp [hG]
  | succ n ih =>
    have hsn : 0 < s + n := by positivity
    have hm : Measurable fun z : ℝ => ENNReal.ofReal (1 / z) ^ (n + 1) := by fun_prop
    have h1 : ENNReal.ofReal (s + n) * ∫⁻ z, ENNReal.ofReal (1 / z) ^ (n + 1)
        ∂gammaMeasure (s + n + 1) 1 = ∫⁻ z, ENNReal.ofReal (1 / z) ^ n ∂gammaMeasure (s + n) 1 := by
      rw [← smul_eq_mul, ← lintegral_smul_measure, ← gamma_size_bias hsn,
        lintegral_withDensity_eq_lintegral_mul _ ENNReal.measurable_ofReal hm]
      refine lintegral_congr_ae ?_
      filter_upwards [gamma_ae_pos (s + n) 1] with z hz
      rw [Pi.mul_apply, pow_succ, mul_comm (_ ^ n), ← mul_assoc, ← ENNReal.ofReal_mul hz.le,
        mul_one_div_cancel hz.ne', ENNReal.ofReal_one, one_mul]
    rw [ih] at h1
    push_cast
    rw [← add_assoc]
    have h2 : ENNReal.ofReal (s + n) ≠ 0 := by simpa using hsn
    rw [← ENNReal.mul_right_inj h2 ENNReal.ofReal_ne_top, h1, ← ENNReal.ofReal_mul hsn.le,
      Real.Gamma_add_one hsn.ne']
    congr 1
    have := (Real.Gamma_pos_of_pos hsn).ne'
    field_simp

theorem normalise_measurable' {D : ℕ} : Measurable fun (g : Fin D → ℝ) (i : Fin D) => g i / ∑ j, g j :=
  measurable_pi_lambda _ fun i => (measurable_pi_apply i).div
    (Finset.measurable_sum _ fun j _ => measurable_pi_apply j)

theorem dirichletLaw_prob {D : ℕ} (c : Fin D → ℝ) (hc : ∀ i, 0 < c i) :
    IsProbabilityMeasure (dirichletLaw c) := by
  have h1 : ∀ j, IsProbabilityMeasure (gammaMeasure (c j) 1) := fun j =>
    isProbabilityMeasure_gammaMeasure (hc j) one_pos
  unfold dirichletLaw gammaLaw
  exact Measure.isProbabilityMeasure_map normalise_measurable'.aemeasurable

/-- The probability of the sequence of categories `ks`. -/
theorem dirichlet_moment {D : ℕ} (hD : 0 < D) (c : Fin D → ℝ) (hc : ∀ i, 0 < c i)
    (ks : List (Fin D)) :
    ∫⁻ w, (ks.map fun k => ENNReal.ofReal (w k)).prod ∂dirichletLaw c =
    ENNReal.ofReal ((∏ i, Real.Gamma (bump c ks i) / Real.Gamma (c i)) *
      (Real.Gamma (∑ i, c i) / Real.Gamma (∑ i, c i + ks.length))) := by
  have hne : Nonempty (Fin D) := ⟨⟨0, hD⟩⟩
  have hs : 0 < ∑ i, c i := Finset.sum_pos (fun i _ => hc i) Finset.univ_nonempty
  have hz : Measurable fun z : ℝ => ENNReal.ofReal (1 / z) ^ ks.length := by fun_prop
  have hsum : Measurable fun g : Fin D → ℝ => ∑ j, g j :=
    Finset.measurable_sum _ fun j _ => measurable_pi_apply j
  have h1 : ∀ j, IsProbabilityMeasure (gammaMeasure (c j) 1) := fun j =>
    isProbabilityMeasure_gammaMeasure (hc j) one_pos
  have hw : Measurable fun w : Fin D → ℝ => (ks.map fun k => ENNReal.ofReal (w k)).prod :=
    measurable_list_prod (fun k (g : Fin D → ℝ) => ENNReal.ofReal (g k))
        (fun k => (measurable_pi_apply k).ennreal_ofReal) ks
  unfold dirichletLaw gammaLaw
  rw [lintegral_map hw normalise_measurable']
  have hae : (fun g : Fin D → ℝ => (ks.map fun k => ENNReal.ofReal (g k / ∑ j, g j)).prod)
      =ᵐ[Measure.pi fun j => gammaMeasure (c j) 1]
      fun g => (ks.map fun k => ENNReal.ofReal (g k)).prod * ENNReal.ofReal (1 / ∑ j, g j) ^ ks.length := by
    have hpos : ∀ᵐ g ∂(Measure.pi fun j => gammaMeasure (c j) 1), ∀ i, 0 < g i :=
      ae_all_iff.2 fun i =>
      (measurePreserving_eval (fun j => gammaMeasure (c j) 1) i).quasiMeasurePreserving.ae
        (gamma_ae_pos (c i) 1)
    filter_upwards [hpos] with g hg
    clear hz hw
    induction ks with
    | nil => simp
    | cons k ks ih =>
      simp only [List.map_cons, List.prod_cons, List.length_cons]
      rw [ih, div_eq_mul_one_div (g k), ENNReal.ofReal_mul (hg k).le, pow_succ]
      ring
  refine (lintegral_congr_ae hae).trans ?_
  rw [gamma_pi_moment (fun z => ENNReal.ofReal (1 / z) ^ ks.length) hz ks c hc,
    ← lintegral_map (f := fun z : ℝ => ENNReal.ofReal (1 / z) ^ ks.length) hz hsum,
    gamma_sum hD _ (bump_pos c hc ks) one_pos, sum_bump, gamma_inv_moment hs, ← ENNReal.ofReal_mul]
  exact Finset.prod_nonneg fun i _ => (div_pos (Real.Gamma_pos_of_pos (bump_pos c hc ks i))
    (Real.Gamma_pos_of_pos (hc i))).le

end Verif
