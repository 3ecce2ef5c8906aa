import Verif.Spec.Evidence
import Verif.Lemmas.GammaExpect
import Mathlib.Probability.Independence.Integration

/-!
# Marginal densities of Gaussian data under Normal-Gamma priors
-/

namespace Verif

open Real MeasureTheory ProbabilityTheory Set Verif.Dists
open scoped ENNReal

/-- The mean of the posterior. -/
noncomputable def postMean (m k : ℝ) (xs : List ℝ) : ℝ := (k * m + xs.sum) / (k + xs.length)

/-- The sum of squares left after completing the square. -/
noncomputable def postSq (m k : ℝ) (xs : List ℝ) : ℝ :=
  (xs.map (· ^ 2)).sum + k * m ^ 2 - (k + xs.length) * postMean m k xs ^ 2

theorem complete_square (m k mu : ℝ) (hk : 0 < k) (xs : List ℝ) :
    (xs.map fun x => (x - mu) ^ 2).sum + k * (mu - m) ^ 2 =
      (k + xs.length) * (mu - postMean m k xs) ^ 2 + postSq m k xs := by
  have hn : (k + xs.length) ≠ 0 := by positivity
  have h1 : (xs.map fun x => (x - mu) ^ 2).sum =
      (xs.map (· ^ 2)).sum - 2 * mu * xs.sum + xs.length * mu ^ 2 := by
    clear hn
    induction xs with
    | nil => simp
    | cons x xs ih => simp only [List.map_cons, List.sum_cons, List.length_cons, ih]; push_cast; ring
  rw [h1]
  unfold postSq
  have h2 : (k + xs.length) * postMean m k xs = k * m + xs.sum := by
    unfold postMean; field_simp
  linear_combination (2 * mu) * h2

theorem postSq_nonneg (m k : ℝ) (hk : 0 < k) (xs : List ℝ) : 0 ≤ postSq m k xs := by
  have h := complete_square m k (postMean m k xs) hk xs
  rw [sub_self] at h
  have h1 : 0 ≤ (xs.map fun x => (x - postMean m k xs) ^ 2).sum :=
    List.sum_nonneg (by simp only [List.mem_map]; rintro _ ⟨x, _, rfl⟩; positivity)
  nlinarith [mul_nonneg hk.le (sq_nonneg (postMean m k xs - m))]

theorem gaussianPDF_prec (mu l x : ℝ) (hl : 0 < l) :
    gaussianPDF mu (1 / l).toNNReal x =
      ENNReal.ofReal (√(l / (2 * π)) * exp (-(l / 2) * (x - mu) ^ 2)) := by
  unfold gaussianPDF gaussianPDFReal
  rw [Real.coe_toNNReal _ (by positivity)]
  congr 1
  rw [← sqrt_inv]
  congr 2
  · field_simp
  · field_simp

theorem gaussianPDF_prec_prod (mu l : ℝ) (hl : 0 < l) (xs : List ℝ) :
    (xs.map fun x => gaussianPDF mu (1 / l).toNNReal x).prod =
      ENNReal.ofReal (√(l / (2 * π)) ^ xs.length *
        exp (-(l / 2) * (xs.map fun x => (x - mu) ^ 2).sum)) := by
  induction xs with
  | nil => simp
  | cons x xs ih =>
    rw [List.map_cons, List.prod_cons, ih, gaussianPDF_prec _ _ _ hl]
    simp only [List.map_cons, List.sum_cons, List.length_cons]
    rw [← ENNReal.ofReal_mul (by positivity)]
    congr 1
    rw [mul_add, exp_add]
    ring

/-- Gaussian data with a known precision and a Gaussian mean. -/
theorem gauss_marginal (m k l : ℝ) (hk : 0 < k) (hl : 0 < l) (xs : List ℝ) :
    ∫⁻ mu, (xs.map fun x => gaussianPDF mu (1 / l).toNNReal x).prod
      ∂gaussianReal m (1 / (k * l)).toNNReal =
    ENNReal.ofReal (√(l / (2 * π)) ^ xs.length * √(k / (k + xs.length)) *
      exp (-(l / 2) * postSq m k xs)) := by
  have hkl : 0 < k * l := by positivity
  have hv : (1 / (k * l)).toNNReal ≠ 0 := by
    rw [Ne, Real.toNNReal_eq_zero, not_le]; positivity
  have hn : 0 < k + xs.length := by positivity
  have hnl : 0 < (k + xs.length) * l := by positivity
  have hv' : (1 / ((k + xs.length) * l)).toNNReal ≠ 0 := by
    rw [Ne, Real.toNNReal_eq_zero, not_le]; positivity
  rw [gaussianReal_of_var_ne_zero _ hv]
  simp_rw [gaussianPDF_prec_prod _ _ hl]
  rw [lintegral_withDensity_eq_lintegral_mul _ (measurable_gaussianPDF _ _) (by
    refine Measurable.ennreal_ofReal (Measurable.mul measurable_const (Measurable.exp
      (Measurable.mul measurable_const ?_)))
    induction xs with
    | nil => simp
    | cons x xs ih =>
      simp only [List.map_cons, List.sum_cons]
      exact ((measurable_const.sub measurable_id).pow_const 2).add
        (ih (by positivity) (by positivity) (by
          rw [Ne, Real.toNNReal_eq_zero, not_le]; positivity)))]
  have hpt : ∀ mu : ℝ, ((gaussianPDF m (1 / (k * l)).toNNReal : ℝ → ℝ≥0∞) * (fun mu : ℝ => ENNReal.ofReal
      (√(l / (2 * π)) ^ xs.length * exp (-(l / 2) * (xs.map fun x => (x - mu) ^ 2).sum)))) mu =
      ENNReal.ofReal (√(l / (2 * π)) ^ xs.length * √(k / (k + xs.length)) *
        exp (-(l / 2) * postSq m k xs)) *
      gaussianPDF (postMean m k xs) (1 / ((k + xs.length) * l)).toNNReal mu := by
    intro mu
    rw [Pi.mul_apply, gaussianPDF_prec _ _ _ hkl, gaussianPDF_prec _ _ _ hnl,
      ← ENNReal.ofReal_mul (by positivity), ← ENNReal.ofReal_mul (by positivity)]
    congr 1
    have hs : √(k * l / (2 * π)) = √(k / (k + xs.length)) * √((k + xs.length) * l / (2 * π)) := by
      rw [← sqrt_mul (by positivity)]
      congr 1
      field_simp
    have he : exp (-(k * l / 2) * (mu - m) ^ 2) * exp (-(l / 2) * (xs.map fun x => (x - mu) ^ 2).sum) =
        exp (-(l / 2) * postSq m k xs) *
          exp (-((k + xs.length) * l / 2) * (mu - postMean m k xs) ^ 2) := by
      rw [← exp_add, ← exp_add]
      congr 1
      linear_combination (-(l / 2)) * complete_square m k mu hk xs
    rw [hs]
    calc _ = √(l / (2 * π)) ^ xs.length * √(k / (k + xs.length)) * √((k + xs.length) * l / (2 * π)) *
          (exp (-(k * l / 2) * (mu - m) ^ 2) *
            exp (-(l / 2) * (xs.map fun x => (x - mu) ^ 2).sum)) := by ring
      _ = _ := by rw [he]; ring
  simp_rw [hpt]
  rw [lintegral_const_mul _ (measurable_gaussianPDF _ _), lintegral_gaussianPDF_eq_one _ hv', mul_one]

/-- A Gamma law weighted by a power and an exponential. -/
theorem gamma_power_exp (a b s q : ℝ) (ha : 0 < a) (hb : 0 < b) (hs : 0 ≤ s) (hbq : 0 < b + q) :
    ∫⁻ l, ENNReal.ofReal (l ^ s * exp (-(q * l))) ∂gammaMeasure a b =
    ENNReal.ofReal (b ^ a / Real.Gamma a * (Real.Gamma (a + s) / (b + q) ^ (a + s))) := by
  have has : 0 < a + s := by linarith
  have hG := Real.Gamma_pos_of_pos ha
  have hG' := Real.Gamma_pos_of_pos has
  unfold gammaMeasure
  have hg : Measurable (gammaPDF a b) := (measurable_gammaPDFReal a b).ennreal_ofReal
  have hf : Measurable fun l : ℝ => ENNReal.ofReal (l ^ s * exp (-(q * l))) := by fun_prop
  rw [lintegral_withDensity_eq_lintegral_mul _ hg hf]
  have hpt : (gammaPDF a b * fun l => ENNReal.ofReal (l ^ s * exp (-(q * l)))) =ᵐ[volume]
      fun l => ENNReal.ofReal (b ^ a / Real.Gamma a * (Real.Gamma (a + s) / (b + q) ^ (a + s))) *
        gammaPDF (a + s) (b + q) l := by
    have h0 : ∀ᵐ l : ℝ ∂volume, l ≠ 0 := by
      refine (measure_eq_zero_iff_ae_notMem (s := {(0 : ℝ)})).1 (by simp) |>.mono fun l hl => ?_
      simpa using hl
    filter_upwards [h0] with l hl
    rw [Pi.mul_apply]
    unfold gammaPDF
    rcases lt_or_gt_of_ne hl with h | h
    · unfold gammaPDFReal
      rw [if_neg (not_le.2 h), if_neg (not_le.2 h)]
      simp
    · rw [← ENNReal.ofReal_mul (gammaPDFReal_nonneg ha hb l), ← ENNReal.ofReal_mul (by positivity)]
      congr 1
      unfold gammaPDFReal
      rw [if_pos h.le, if_pos h.le]
      have e1 : l ^ (a + s - 1) = l ^ (a - 1) * l ^ s := by rw [← rpow_add h]; congr 1; ring
      have e2 : exp (-((b + q) * l)) = exp (-(b * l)) * exp (-(q * l)) := by
        rw [← exp_add]; congr 1; ring
      rw [e1, e2]
      have := rpow_pos_of_pos hbq (a + s)
      field_simp
  have hg2 : Measurable (gammaPDF (a + s) (b + q)) := (measurable_gammaPDFReal _ _).ennreal_ofReal
  rw [lintegral_congr_ae hpt, lintegral_const_mul _ hg2,
    lintegral_gammaPDF_eq_one has hbq, mul_one]

theorem gaussian_affine (m k l : ℝ) (hk : 0 < k) (hl : 0 < l) :
    (gaussianReal 0 1).map (fun z => m + z / √(k * l)) = gaussianReal m (1 / (k * l)).toNNReal := by
  have h : (fun z : ℝ => m + z / √(k * l)) = (fun y => m + y) ∘ fun z => z / √(k * l) := rfl
  have h1 : Measurable fun y : ℝ => m + y := by fun_prop
  have h2 : Measurable fun z : ℝ => z / √(k * l) := by fun_prop
  rw [h, ← Measure.map_map h1 h2,
    gaussianReal_map_div_const, gaussianReal_map_const_add]
  congr 1
  · simp
  · ext
    have : 0 < k * l := by positivity
    rw [Real.coe_toNNReal _ (by positivity)]
    simp [sq_sqrt this.le]

/-- The contribution of the precision. -/
theorem gamma_stage (a b Q : ℝ) (N : ℕ) (ha : 0 < a) (hb : 0 < b) (hQ : 0 ≤ Q) :
    ∫⁻ l, ENNReal.ofReal (√(l / (2 * π)) ^ N * exp (-(l / 2) * Q)) ∂gammaMeasure a b =
    ENNReal.ofReal (exp (lgamma (a + N / 2) - (a + N / 2) * log (b + Q / 2) -
      (lgamma a - a * log b) - N / 2 * log (2 * π))) := by
  have h2 : (0 : ℝ) < 2 * π := by positivity
  have hN : (0 : ℝ) ≤ N / 2 := by positivity
  have hbq : 0 < b + Q / 2 := by linarith
  have hG := Real.Gamma_pos_of_pos ha
  have hG' := Real.Gamma_pos_of_pos (show 0 < a + N / 2 by linarith)
  have hpt : (fun l => ENNReal.ofReal (√(l / (2 * π)) ^ N * exp (-(l / 2) * Q)))
      =ᵐ[gammaMeasure a b] fun l => ENNReal.ofReal ((2 * π) ^ (-(N / 2 : ℝ))) *
        ENNReal.ofReal (l ^ (N / 2 : ℝ) * exp (-(Q / 2 * l))) := by
    filter_upwards [gamma_ae_pos a b] with l hl
    rw [← ENNReal.ofReal_mul (by positivity)]
    congr 1
    have e1 : √(l / (2 * π)) ^ N = (2 * π) ^ (-(N / 2 : ℝ)) * l ^ (N / 2 : ℝ) := by
      rw [sqrt_eq_rpow, ← rpow_natCast, ← rpow_mul (by positivity), div_rpow hl.le h2.le,
        rpow_neg h2.le, show (1 / 2 * (N : ℝ)) = N / 2 by ring]
      field_simp
    rw [e1, show -(l / 2) * Q = -(Q / 2 * l) by ring]
    ring
  have hf : Measurable fun l : ℝ => ENNReal.ofReal (l ^ (N / 2 : ℝ) * exp (-(Q / 2 * l))) := by fun_prop
  rw [lintegral_congr_ae hpt, lintegral_const_mul _ hf, gamma_power_exp a b _ _ ha hb hN (by linarith),
    ← ENNReal.ofReal_mul (by positivity)]
  congr 1
  unfold lgamma
  rw [exp_sub, exp_sub, exp_sub, exp_sub, exp_log hG', exp_log hG, mul_comm _ (log (b + Q / 2)),
    mul_comm _ (log b), mul_comm _ (log (2 * π)), ← rpow_def_of_pos hbq, ← rpow_def_of_pos hb,
    ← rpow_def_of_pos h2, rpow_neg h2.le]
  have := rpow_pos_of_pos hbq (a + N / 2)
  have := rpow_pos_of_pos hb a
  field_simp

theorem measurable_gaussianPDF_param (x : ℝ) :
    Measurable fun θ : ℝ × ℝ => gaussianPDF θ.1 (1 / θ.2).toNNReal x := by
  unfold gaussianPDF gaussianPDFReal
  fun_prop

theorem measurable_list_prod {α ι : Type} [MeasurableSpace α] (f : ι → α → ℝ≥0∞)
    (hf : ∀ i, Measurable (f i)) (xs : List ι) : Measurable fun a => (xs.map fun x => f x a).prod := by
  induction xs with
  | nil => simp
  | cons x xs ih =>
    simp only [List.map_cons, List.prod_cons]
    exact (hf x).mul ih

/-- An integral over a Normal-Gamma law. -/
theorem lintegral_normalGamma (m k a b : ℝ) (hk : 0 < k) (ha : 0 < a) (hb : 0 < b)
    (f : ℝ × ℝ → ℝ≥0∞) (hf : Measurable f) :
    ∫⁻ θ, f θ ∂VB.normalGammaLaw m k a b =
      ∫⁻ l, ∫⁻ mu, f (mu, l) ∂gaussianReal m (1 / (k * l)).toNNReal ∂gammaMeasure a b := by
  have hp := isProbabilityMeasure_gammaMeasure ha hb
  have hm : Measurable fun p : ℝ × ℝ => (m + p.2 / √(k * p.1), p.1) := by fun_prop
  unfold VB.normalGammaLaw
  have hfm : Measurable fun p : ℝ × ℝ => f (m + p.2 / √(k * p.1), p.1) := hf.comp hm
  rw [lintegral_map hf hm, lintegral_prod _ hfm.aemeasurable]
  refine lintegral_congr_ae ?_
  filter_upwards [gamma_ae_pos a b] with l hl
  rw [← gaussian_affine m k l hk hl, lintegral_map (by fun_prop) (by fun_prop)]

theorem normalGammaLaw_prob (m k a b : ℝ) (ha : 0 < a) (hb : 0 < b) :
    IsProbabilityMeasure (VB.normalGammaLaw m k a b) := by
  have hp := isProbabilityMeasure_gammaMeasure ha hb
  exact Measure.isProbabilityMeasure_map (by fun_prop)

/-- The marginal density of one dimension. -/
theorem ng_marginal (m k a b : ℝ) (hk : 0 < k) (ha : 0 < a) (hb : 0 < b) (xs : List ℝ) :
    ∫⁻ θ, (xs.map fun x => gaussianPDF θ.1 (1 / θ.2).toNNReal x).prod ∂VB.normalGammaLaw m k a b =
    ENNReal.ofReal (exp
      (lgamma (a + xs.length / 2) - (a + xs.length / 2) * log (b + postSq m k xs / 2)
        - 1 / 2 * log (k + xs.length) - (lgamma a - a * log b - 1 / 2 * log k)
        - xs.length / 2 * log (2 * π))) := by
  have hn : 0 < k + xs.length := by positivity
  rw [lintegral_normalGamma m k a b hk ha hb _
    (measurable_list_prod (fun x (θ : ℝ × ℝ) => gaussianPDF θ.1 (1 / θ.2).toNNReal x)
      measurable_gaussianPDF_param xs)]
  have hpt : (fun l => ∫⁻ mu, (xs.map fun x => gaussianPDF mu (1 / l).toNNReal x).prod
      ∂gaussianReal m (1 / (k * l)).toNNReal) =ᵐ[gammaMeasure a b] fun l =>
      ENNReal.ofReal (√(k / (k + xs.length))) *
        ENNReal.ofReal (√(l / (2 * π)) ^ xs.length * exp (-(l / 2) * postSq m k xs)) := by
    filter_upwards [gamma_ae_pos a b] with l hl
    rw [gauss_marginal m k l hk hl, ← ENNReal.ofReal_mul (by positivity)]
    congr 1
    ring
  rw [lintegral_congr_ae hpt, lintegral_const_mul _ (by fun_prop),
    gamma_stage a b _ _ ha hb (postSq_nonneg m k hk xs), ← ENNReal.ofReal_mul (by positivity)]
  congr 1
  rw [sqrt_eq_rpow, rpow_def_of_pos (by positivity), ← exp_add, log_div hk.ne' hn.ne']
  congr 1
  ring

/-- The integral of a product over independent coordinates. -/
theorem lintegral_pi_prod {D : ℕ} {α : Type} [MeasurableSpace α] (μ : Fin D → Measure α)
    (hμ : ∀ i, IsProbabilityMeasure (μ i)) (f : Fin D → α → ℝ≥0∞) (hf : ∀ i, Measurable (f i)) :
    ∫⁻ θ, ∏ i, f i (θ i) ∂Measure.pi μ = ∏ i, ∫⁻ t, f i t ∂μ i := by
  rw [lintegral_prod_eq_prod_lintegral_of_indepFun Finset.univ (fun i (θ : Fin D → α) => f i (θ i))
    (iIndepFun_pi (X := f) fun i => (hf i).aemeasurable)
    (fun i => (hf i).comp (measurable_pi_apply i))]
  exact Finset.prod_congr rfl fun i _ => (measurePreserving_eval μ i).lintegral_comp (hf i)

theorem isoNormalGammaLaw_prob {D : ℕ} (m : Fin D → ℝ) (k a b : ℝ) (ha : 0 < a) (hb : 0 < b) :
    IsProbabilityMeasure (VB.isoNormalGammaLaw m k a b) := by
  have hp := isProbabilityMeasure_gammaMeasure ha hb
  refine Measure.isProbabilityMeasure_map (Measurable.aemeasurable ?_)
  refine Measurable.prodMk (measurable_pi_lambda _ fun i => ?_) measurable_fst
  fun_prop

theorem measurable_gaussianPDF_iso {D : ℕ} (i : Fin D) (x : ℝ) :
    Measurable fun θ : (Fin D → ℝ) × ℝ => gaussianPDF (θ.1 i) (1 / θ.2).toNNReal x := by
  unfold gaussianPDF gaussianPDFReal
  fun_prop

theorem measurable_gaussianPDF_mean (l x : ℝ) :
    Measurable fun mu : ℝ => gaussianPDF mu (1 / l).toNNReal x := by
  unfold gaussianPDF gaussianPDFReal
  fun_prop

theorem lintegral_iso {D : ℕ} (m : Fin D → ℝ) (k a b : ℝ) (ha : 0 < a) (hb : 0 < b)
    (f : (Fin D → ℝ) × ℝ → ℝ≥0∞) (hf : Measurable f) :
    ∫⁻ θ, f θ ∂VB.isoNormalGammaLaw m k a b =
      ∫⁻ l, ∫⁻ z : Fin D → ℝ, f (fun i => m i + z i / √(k * l), l)
        ∂(Measure.pi fun _ : Fin D => gaussianReal 0 1) ∂gammaMeasure a b := by
  have hp := isProbabilityMeasure_gammaMeasure ha hb
  have hm : Measurable fun p : ℝ × (Fin D → ℝ) => ((fun i => m i + p.2 i / √(k * p.1) : Fin D → ℝ), p.1) := by
    refine Measurable.prodMk (measurable_pi_lambda _ fun i => ?_) measurable_fst
    fun_prop
  have hfm : Measurable fun p : ℝ × (Fin D → ℝ) => f (fun i => m i + p.2 i / √(k * p.1), p.1) := hf.comp hm
  unfold VB.isoNormalGammaLaw
  rw [lintegral_map hf hm, lintegral_prod _ hfm.aemeasurable]

/-- The marginal density with a shared precision. -/
theorem iso_marginal {D : ℕ} (m : Fin D → ℝ) (k a b : ℝ) (hk : 0 < k) (ha : 0 < a) (hb : 0 < b)
    (n : ℕ) (xs : Fin D → List ℝ) (hx : ∀ i, (xs i).length = n) :
    ∫⁻ θ, ∏ i, ((xs i).map fun x => gaussianPDF (θ.1 i) (1 / θ.2).toNNReal x).prod
      ∂VB.isoNormalGammaLaw m k a b =
    ENNReal.ofReal (exp
      (lgamma (a + D * n / 2) - (a + D * n / 2) * log (b + (∑ i, postSq (m i) k (xs i)) / 2)
        - 1 / 2 * D * log (k + n) - (lgamma a - a * log b - 1 / 2 * D * log k)
        - D * n / 2 * log (2 * π))) := by
  have hp := isProbabilityMeasure_gammaMeasure ha hb
  have hn : 0 < k + n := by positivity
  have hf : Measurable fun θ : (Fin D → ℝ) × ℝ =>
      ∏ i, ((xs i).map fun x => gaussianPDF (θ.1 i) (1 / θ.2).toNNReal x).prod := by
    refine Finset.measurable_prod _ fun i _ => measurable_list_prod
      (fun x (θ : (Fin D → ℝ) × ℝ) => gaussianPDF (θ.1 i) (1 / θ.2).toNNReal x) (fun x => ?_) _
    exact measurable_gaussianPDF_iso i x
  rw [lintegral_iso m k a b ha hb _ hf]
  have hpt : (fun l => ∫⁻ z : Fin D → ℝ, ∏ i, ((xs i).map fun x => gaussianPDF (m i + z i / √(k * l))
      (1 / l).toNNReal x).prod ∂(Measure.pi fun _ : Fin D => gaussianReal 0 1))
      =ᵐ[gammaMeasure a b] fun l => ENNReal.ofReal (√(k / (k + n)) ^ D) *
        ENNReal.ofReal (√(l / (2 * π)) ^ (D * n) * exp (-(l / 2) * ∑ i, postSq (m i) k (xs i))) := by
    filter_upwards [gamma_ae_pos a b] with l hl
    have hg : ∀ i, Measurable fun mu : ℝ =>
        ((xs i).map fun x => gaussianPDF mu (1 / l).toNNReal x).prod := fun i =>
      measurable_list_prod (fun x (mu : ℝ) => gaussianPDF mu (1 / l).toNNReal x)
        (measurable_gaussianPDF_mean l) _
    rw [lintegral_pi_prod (fun _ : Fin D => gaussianReal 0 1) (fun _ => inferInstance)
      (fun i z => ((xs i).map fun x => gaussianPDF (m i + z / √(k * l)) (1 / l).toNNReal x).prod)
      (fun i => (hg i).comp (by fun_prop))]
    have hi : ∀ i, ∫⁻ z, ((xs i).map fun x => gaussianPDF (m i + z / √(k * l)) (1 / l).toNNReal x).prod
        ∂gaussianReal 0 1 = ENNReal.ofReal (√(l / (2 * π)) ^ n * √(k / (k + n)) *
          exp (-(l / 2) * postSq (m i) k (xs i))) := by
      intro i
      rw [← hx i, ← gauss_marginal (m i) k l hk hl, ← gaussian_affine (m i) k l hk hl,
        lintegral_map (hg i) (by fun_prop)]
    rw [Finset.prod_congr rfl fun i _ => hi i, ← ENNReal.ofReal_prod_of_nonneg (fun i _ => by positivity),
      ← ENNReal.ofReal_mul (by positivity)]
    congr 1
    rw [Finset.prod_mul_distrib, Finset.prod_const, Finset.card_univ, Fintype.card_fin,
      ← exp_sum, ← Finset.mul_sum, mul_pow, ← pow_mul, mul_comm n D]
    ring
  have hQ : 0 ≤ ∑ i, postSq (m i) k (xs i) := Finset.sum_nonneg fun i _ => postSq_nonneg _ _ hk _
  refine (lintegral_congr_ae hpt).trans ?_
  rw [lintegral_const_mul _ (by fun_prop), gamma_stage a b _ _ ha hb hQ,
    ← ENNReal.ofReal_mul (by positivity)]
  congr 1
  rw [sqrt_eq_rpow, ← rpow_natCast, ← rpow_mul (by positivity), rpow_def_of_pos (by positivity),
    ← exp_add, log_div hk.ne' hn.ne']
  congr 1
  push_cast
  ring

end Verif
