import Verif.Lemmas.Flow
import Mathlib.Analysis.Complex.ExponentialBounds

/-!
# C82: the law of the samples of a flow
-/

namespace Verif.Props

open Verif Nnet ProbLayers ProbLayersSpec MeasureTheory ProbabilityTheory

open scoped ENNReal

variable {D W F : ℕ}

/-- **C82 (law of the samples).** With flow parameters and positive variances, for all networks with measurable
activations: there is one function `llh` such that every sample `y` is returned with `llh y`, and standard normal
noise gives samples with density `exp (llh y)`.  With `use_mean` the sample is that of the noise zero, but its
log-likelihood is `llh` plus `D / 2 log (2 π)`. -/
theorem C82_law_partial (hF : 0 < F) (nets : List (ARNet D W F)) (hact : ∀ net ∈ nets, Measurable net.act)
    (f : Fin F → ℝ) (means vars : Fin D → ℝ) (hv : ∀ d, 0 < vars d) :
    ∃ (T : (Fin D → ℝ) → Fin D → ℝ) (llh : (Fin D → ℝ) → ℝ),
      Measurable T ∧ Function.Bijective T ∧
      (∀ noise, samplesAndLlh nets f means vars false noise = .ok (T noise, llh (T noise))) ∧
      (diagGaussian (0 : Fin D → ℝ) 1).map T = volume.withDensity (fun y => ENNReal.ofReal (Real.exp (llh y))) ∧
      (0 < D → ∀ noise, samplesAndLlh nets f means vars true noise =
        .ok (T 0, llh (T 0) + D / 2 * Real.log (2 * Real.pi))) := by
  let base : (Fin D → ℝ) → Fin D → ℝ := fun z d => means d + Real.sqrt (vars d) * z d
  let S : (Fin D → ℝ) → Fin D → ℝ := fun x => (flowSpec f nets x).1
  let C : (Fin D → ℝ) → ℝ := fun x => (flowSpec f nets x).2
  obtain ⟨hS, hC⟩ : Measurable S ∧ Measurable C := measurable_flowSpec f nets hact
  have hSb : Function.Bijective S := flowSpec_bijective f nets
  have hbase : Measurable base := measurable_pi_iff.2 fun d => by
    exact ((measurable_pi_apply d).const_mul _).const_add _
  have hbb : Function.Bijective base := by
    constructor
    · intro a b hab
      funext d
      exact mul_left_cancel₀ (Real.sqrt_pos.2 (hv d)).ne' (add_left_cancel (congrFun hab d))
    · intro y
      refine ⟨fun d => (y d - means d) / Real.sqrt (vars d), funext fun d => ?_⟩
      change means d + Real.sqrt (vars d) * ((y d - means d) / Real.sqrt (vars d)) = y d
      rw [mul_div_cancel₀ _ (Real.sqrt_pos.2 (hv d)).ne']
      ring
  have hemb : MeasurableEmbedding S := hS.measurableEmbedding hSb.1
  let inv : (Fin D → ℝ) → Fin D → ℝ := Function.surjInv hSb.2
  have hinv : ∀ x, inv (S x) = x := Function.leftInverse_surjInv hSb
  have hinvm : Measurable inv := by
    intro s hs
    have e : inv ⁻¹' s = S '' s := by
      ext y
      constructor
      · intro hy
        exact ⟨inv y, hy, Function.surjInv_eq hSb.2 y⟩
      · rintro ⟨x, hx, rfl⟩
        change inv (S x) ∈ s
        rwa [hinv]
    rw [e]
    exact hemb.measurableSet_image.2 hs
  have hdm : Measurable fun x => diagLlh x (means, vars) := by
    unfold diagLlh
    fun_prop
  let llh : (Fin D → ℝ) → ℝ := fun y => diagLlh (inv y) (means, vars) + C (inv y)
  have hllh : Measurable llh := (hdm.comp hinvm).add (hC.comp hinvm)
  have hlS : ∀ x, llh (S x) = diagLlh x (means, vars) + C x := fun x => by
    change diagLlh (inv (S x)) (means, vars) + C (inv (S x)) = _
    rw [hinv]
  have hnoise : ∀ z, diagLlh (base z) (means, vars) =
      -(1 / 2) * (∑ d, z d ^ 2 + D * Real.log (2 * Real.pi)) - 1 / 2 * ∑ d, Real.log (vars d) := by
    intro z
    unfold diagLlh
    have : ∀ d, (base z d - means d) ^ 2 / vars d = z d ^ 2 := by
      intro d
      change (means d + Real.sqrt (vars d) * z d - means d) ^ 2 / vars d = z d ^ 2
      rw [add_sub_cancel_left, mul_pow, Real.sq_sqrt (hv d).le, mul_div_cancel_left₀ _ (hv d).ne']
    simp only [this]
    ring
  refine ⟨S ∘ base, llh, hS.comp hbase, hSb.comp hbb, fun noise => ?_, ?_, fun hD noise => ?_⟩
  · unfold samplesAndLlh
    rw [if_neg (by simp)]
    dsimp only
    rw [if_neg Bool.false_ne_true, if_neg Bool.false_ne_true]
    refine (flow_fold hF f nets _ _).trans ?_
    congr 2
    change _ = llh (S (base noise))
    rw [hlS, hnoise]
  · rw [← Measure.map_map hS hbase, map_noise means vars hv, pi_gaussian_withDensity means vars hv]
    refine Measure.ext fun s hs => ?_
    rw [Measure.map_apply hS hs, withDensity_apply _ (hS hs), withDensity_apply _ hs,
      ← lintegral_indicator (hS hs), ← lintegral_indicator hs]
    rw [← lintegral_flow f nets hact (s.indicator fun y => ENNReal.ofReal (Real.exp (llh y)))
      (hllh.exp.ennreal_ofReal.indicator hs)]
    refine lintegral_congr fun x => ?_
    by_cases hx : S x ∈ s
    · rw [Set.indicator_of_mem (show x ∈ S ⁻¹' s from hx), Set.indicator_of_mem (show (flowSpec f nets x).1 ∈ s from hx)]
      change _ = ENNReal.ofReal (Real.exp (-C x)) * ENNReal.ofReal (Real.exp (llh (S x)))
      rw [← ENNReal.ofReal_mul (Real.exp_nonneg _), ← Real.exp_add, hlS]
      congr 2
      ring
    · rw [Set.indicator_of_notMem (show x ∉ S ⁻¹' s from hx),
        Set.indicator_of_notMem (show (flowSpec f nets x).1 ∉ s from hx), mul_zero]
  · unfold samplesAndLlh
    rw [if_neg (by omega)]
    dsimp only
    rw [if_pos rfl, if_pos rfl]
    refine (flow_fold hF f nets _ _).trans ?_
    have hb0 : base 0 = means := by
      funext d
      simp [base]
    change Except.ok (S means, _ + C means) = Except.ok (S (base 0), llh (S (base 0)) + _)
    rw [hlS, hnoise, hb0]
    congr 2
    simp
    ring

/-- **C82 fails with `use_mean`**: the log-likelihood returned with the mean of a flow is not the one of the same
point drawn at random, for all networks, means and variances. -/
theorem C82_use_mean_fails (hF : 0 < F) (hD : 0 < D) (nets : List (ARNet D W F)) (f : Fin F → ℝ)
    (means vars noise : Fin D → ℝ) (hv : ∀ d, 0 < vars d) :
    ∃ y l l', samplesAndLlh nets f means vars true noise = .ok (y, l) ∧
      samplesAndLlh nets f means vars false 0 = .ok (y, l') ∧ l' < l := by
  refine ⟨(flowSpec f nets means).1, (0 - 1 / 2 * ∑ d, Real.log (vars d)) + (flowSpec f nets means).2,
    (-(1 / 2) * (∑ d : Fin D, (0 : ℝ) ^ 2 + D * Real.log (2 * Real.pi)) - 1 / 2 * ∑ d, Real.log (vars d)) +
      (flowSpec f nets means).2, ?_, ?_, ?_⟩
  · unfold samplesAndLlh
    rw [if_neg (by omega)]
    dsimp only
    rw [if_pos rfl, if_pos rfl]
    exact flow_fold hF f nets _ _
  · unfold samplesAndLlh
    rw [if_neg (by simp)]
    dsimp only
    rw [if_neg Bool.false_ne_true, if_neg Bool.false_ne_true]
    refine (flow_fold hF f nets _ _).trans ?_
    simp
  · have h1 : 0 < Real.log (2 * Real.pi) := Real.log_pos (by nlinarith [Real.pi_gt_three])
    have h2 : (0 : ℝ) < D := by exact_mod_cast hD
    have h3 : ∑ d : Fin D, (0 : ℝ) ^ 2 = 0 := by simp
    rw [h3]
    nlinarith [mul_pos h2 h1]

/-- `use_mean` needs a column: without dimensions it raises. -/
theorem C82_use_mean_no_column (nets : List (ARNet 0 W F)) (f : Fin F → ℝ) (means vars noise : Fin 0 → ℝ) :
    samplesAndLlh nets f means vars true noise = .error .indexError := if_pos ⟨rfl, rfl⟩

/-- A flow of one step with one flow parameter and hidden unit. -/
noncomputable def demoFlow : ARNet 2 1 1 :=
  ⟨fun _ => 0, ⟨fun _ _ => 1, fun _ => 0⟩, ⟨fun _ _ => 1, fun _ => 0⟩, [], fun x => max x 0,
    ⟨fun _ _ => 1, fun _ => 0⟩, ⟨fun _ _ => 1, fun _ => 0⟩⟩

example (f : Fin 1 → ℝ) : ∃ (T : (Fin 2 → ℝ) → Fin 2 → ℝ) (llh : (Fin 2 → ℝ) → ℝ),
    (∀ noise, samplesAndLlh [demoFlow, demoFlow] f ![0, 1] ![1, 4] false noise = .ok (T noise, llh (T noise))) ∧
    (diagGaussian (0 : Fin 2 → ℝ) 1).map T = volume.withDensity (fun y => ENNReal.ofReal (Real.exp (llh y))) := by
  obtain ⟨T, llh, _, _, h, h', _⟩ := C82_law_partial one_pos [demoFlow, demoFlow]
    (by
      intro net hnet
      have : net = demoFlow := by simpa using hnet
      rw [this]
      exact measurable_id.max measurable_const) f ![0, 1] ![1, 4] (by
      intro d
      fin_cases d <;> norm_num)
  exact ⟨T, llh, h, h'⟩

-- the step is not the identity: the second coordinate moves with the first
example : flowStep demoFlow 0 ![1, 0] 1 ≠ flowStep demoFlow 0 ![0, 0] 1 := by
  simp [flowStep, arForward, arOut, maskedForward, Linear.forward, demoFlow, hiddenForward,
    createMask, createFinalMask, sigmoid]
  have h1 : Real.exp (-1) < 1 / 2 := by
    have := Real.exp_one_gt_d9
    rw [Real.exp_neg, inv_lt_comm₀ (Real.exp_pos 1) (by norm_num)]
    linarith
  have h2 : (0 : ℝ) < Real.exp (-1) := Real.exp_pos _
  have h4 : Real.exp (-1) > 1 / 3 := by
    have := Real.exp_one_lt_d9
    rw [Real.exp_neg, gt_iff_lt, lt_inv_comm₀ (by norm_num) (Real.exp_pos 1)]
    linarith
  have h3 : (1 + Real.exp (-1))⁻¹ ≤ 3 / 4 := by
    rw [inv_le_comm₀ (by linarith) (by norm_num)]
    linarith
  intro h
  linarith

end Verif.Props
