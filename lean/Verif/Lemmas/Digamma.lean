import Mathlib.Analysis.SpecialFunctions.Gamma.BohrMollerup
import Mathlib.Analysis.SpecialFunctions.Log.Deriv
import Mathlib.Analysis.Convex.Deriv
import Mathlib.Analysis.Calculus.MeanValue
import Mathlib.Tactic.FieldSimp
import Mathlib.Tactic.Linarith
import Verif.Model.DistsReal

/-!
# Analytic facts on `torch.lgamma` and `torch.digamma` (positive arguments)
-/

namespace Verif.Dists

open Real Set Filter Topology

theorem lgamma_hasDerivAt {x : ℝ} (hx : 0 < x) : HasDerivAt lgamma (digamma x) x := by
  have h1 : DifferentiableAt ℝ Real.Gamma x := by
    apply Real.differentiableAt_Gamma
    intro m
    have : (0:ℝ) ≤ m := Nat.cast_nonneg m
    linarith
  have h2 : DifferentiableAt ℝ lgamma x := h1.log (Real.Gamma_pos_of_pos hx).ne'
  exact h2.hasDerivAt

theorem convexOn_lgamma : ConvexOn ℝ (Ioi 0) lgamma := Real.convexOn_log_Gamma

theorem lgamma_add_one {x : ℝ} (hx : 0 < x) : lgamma (x + 1) = log x + lgamma x := by
  unfold lgamma
  rw [Real.Gamma_add_one hx.ne', Real.log_mul hx.ne' (Real.Gamma_pos_of_pos hx).ne']

theorem digamma_add_one {x : ℝ} (hx : 0 < x) : digamma (x + 1) = digamma x + 1 / x := by
  have h1 : HasDerivAt (fun y => lgamma (y + 1)) (digamma (x + 1)) x := by
    have := (lgamma_hasDerivAt (show 0 < x + 1 by linarith)).comp_add_const x 1
    exact this
  have h2 : HasDerivAt (fun y => log y + lgamma y) (x⁻¹ + digamma x) x :=
    (Real.hasDerivAt_log hx.ne').add (lgamma_hasDerivAt hx)
  have h3 : (fun y => lgamma (y + 1)) =ᶠ[𝓝 x] fun y => log y + lgamma y := by
    filter_upwards [lt_mem_nhds hx] with y hy
    exact lgamma_add_one hy
  have h4 := (h2.congr_of_eventuallyEq h3)
  rw [h1.unique h4, one_div]; ring

theorem digamma_le_log {x : ℝ} (hx : 0 < x) : digamma x ≤ log x := by
  have h := convexOn_lgamma.le_slope_of_hasDerivAt (x := x) (y := x + 1) hx
    (show (0:ℝ) < x + 1 by linarith) (by linarith) (lgamma_hasDerivAt hx)
  rw [slope_def_field, lgamma_add_one hx] at h
  simpa using h

theorem log_le_digamma_add {x : ℝ} (hx : 0 < x) : log x ≤ digamma x + 1 / x := by
  have hx1 : 0 < x + 1 := by linarith
  have h := convexOn_lgamma.slope_le_of_hasDerivAt (x := x) (y := x + 1) hx
    hx1 (by linarith) (lgamma_hasDerivAt hx1)
  rw [slope_def_field, lgamma_add_one hx, digamma_add_one hx] at h
  simpa using h

/-- `ln x − ψ(x)`. -/
noncomputable def gapFn (x : ℝ) : ℝ := log x - digamma x

theorem gapFn_nonneg {x : ℝ} (hx : 0 < x) : 0 ≤ gapFn x := by
  have := digamma_le_log hx; simp only [gapFn]; linarith

theorem gapFn_le {x : ℝ} (hx : 0 < x) : gapFn x ≤ 1 / x := by
  have := log_le_digamma_add hx; simp only [gapFn]; linarith

/-- `1/y − ln(1 + 1/y)`. -/
noncomputable def gapStep (y : ℝ) : ℝ := 1 / y - (log (y + 1) - log y)

theorem gapFn_sub_succ {x : ℝ} (hx : 0 < x) : gapFn x - gapFn (x + 1) = gapStep x := by
  simp only [gapFn, gapStep, digamma_add_one hx]; ring

theorem gapStep_strictAnti {x y : ℝ} (hx : 0 < x) (hxy : x < y) : gapStep y < gapStep x := by
  have hd : ∀ z ∈ Ioi (0:ℝ), HasDerivAt gapStep (-(1 / z ^ 2) - (1 / (z + 1) - 1 / z)) z := by
    intro z hz
    have hz' : (0:ℝ) < z := hz
    have h1 : HasDerivAt (fun y : ℝ => 1 / y) (-(1 / z ^ 2)) z := by
      have := hasDerivAt_inv hz'.ne'
      simpa [one_div] using this
    have h2 : HasDerivAt (fun y : ℝ => log (y + 1)) (1 / (z + 1)) z := by
      have := (Real.hasDerivAt_log (show z + 1 ≠ 0 by linarith)).comp_add_const z 1
      simpa [one_div] using this
    have h3 : HasDerivAt (fun y : ℝ => log y) (1 / z) z := by
      simpa [one_div] using Real.hasDerivAt_log hz'.ne'
    exact h1.sub (h2.sub h3)
  have hanti : StrictAntiOn gapStep (Ioi 0) := by
    apply strictAntiOn_of_deriv_neg (convex_Ioi 0)
    · intro z hz
      exact (hd z hz).continuousAt.continuousWithinAt
    · intro z hz
      rw [interior_Ioi] at hz
      have hz' : (0:ℝ) < z := hz
      rw [(hd z hz).deriv]
      have : -(1 / z ^ 2) - (1 / (z + 1) - 1 / z) = -(1 / (z ^ 2 * (z + 1))) := by
        field_simp; ring
      rw [this]
      have : 0 < 1 / (z ^ 2 * (z + 1)) := by positivity
      linarith
  exact hanti hx (lt_trans hx hxy : (0:ℝ) < y) hxy

/-- `g(x) − g(y) ≥ h(x) − h(y)`, by telescoping. -/
theorem gapFn_sub_ge {x y : ℝ} (hx : 0 < x) (hxy : x < y) :
    gapStep x - gapStep y ≤ gapFn x - gapFn y := by
  have hy : 0 < y := hx.trans hxy
  have tele : ∀ n : ℕ, gapStep x - gapStep y ≤
      (gapFn x - gapFn y) - (gapFn (x + (n + 1 : ℕ)) - gapFn (y + (n + 1 : ℕ))) := by
    intro n
    induction n with
    | zero =>
      have h1 := gapFn_sub_succ hx
      have h2 := gapFn_sub_succ hy
      simp only [zero_add, Nat.cast_one]
      linarith
    | succ n ih =>
      have hx' : 0 < x + (n + 1 : ℕ) := by positivity
      have hy' : 0 < y + (n + 1 : ℕ) := by positivity
      have h1 := gapFn_sub_succ hx'
      have h2 := gapFn_sub_succ hy'
      have h3 := gapStep_strictAnti hx' (show x + (n + 1 : ℕ) < y + (n + 1 : ℕ) by linarith)
      have e1 : x + ((n + 1 + 1 : ℕ) : ℝ) = x + (n + 1 : ℕ) + 1 := by push_cast; ring
      have e2 : y + ((n + 1 + 1 : ℕ) : ℝ) = y + (n + 1 : ℕ) + 1 := by push_cast; ring
      rw [e1, e2]
      linarith
  have lim : ∀ z : ℝ, 0 < z → Tendsto (fun n : ℕ => gapFn (z + (n + 1 : ℕ))) atTop (𝓝 0) := by
    intro z hz
    have h0 : Tendsto (fun n : ℕ => 1 / (z + (n + 1 : ℕ))) atTop (𝓝 0) := by
      have : Tendsto (fun n : ℕ => z + ((n + 1 : ℕ) : ℝ)) atTop atTop := by
        apply tendsto_atTop_add_const_left
        exact tendsto_natCast_atTop_atTop.comp (tendsto_add_atTop_nat 1)
      have h2 := tendsto_inv_atTop_zero.comp this
      simpa [one_div, Function.comp_def] using h2
    refine tendsto_of_tendsto_of_tendsto_of_le_of_le tendsto_const_nhds h0 ?_ ?_
    · intro n; exact gapFn_nonneg (by positivity)
    · intro n; exact gapFn_le (by positivity)
  have hl : Tendsto (fun n : ℕ => (gapFn x - gapFn y) -
      (gapFn (x + (n + 1 : ℕ)) - gapFn (y + (n + 1 : ℕ)))) atTop (𝓝 (gapFn x - gapFn y)) := by
    have := (tendsto_const_nhds (x := gapFn x - gapFn y)).sub ((lim x hx).sub (lim y hy))
    simpa using this
  exact ge_of_tendsto' hl tele

theorem gapFn_strictAnti {x y : ℝ} (hx : 0 < x) (hxy : x < y) : gapFn y < gapFn x := by
  have h1 := gapFn_sub_ge hx hxy
  have h2 := gapStep_strictAnti hx hxy
  linarith

/-- `ψ(x) − ψ(y) ≤ ln(x / y)` for `x ≤ y`. -/
theorem digamma_sub_le {x y : ℝ} (hx : 0 < x) (hxy : x ≤ y) :
    digamma x - digamma y ≤ log x - log y := by
  rcases hxy.eq_or_lt with rfl | h
  · simp
  · have := gapFn_strictAnti hx h
    simp only [gapFn] at this
    linarith

/-! ## The Bregman divergence of `lnΓ(x) − x ln x + x` -/

theorem gamma_bregman_pos {x y : ℝ} (hx : 0 < x) (hy : 0 < y) (hxy : x ≠ y) :
    0 < lgamma y - lgamma x - digamma x * (y - x) - y * (log y - log x) + (y - x) := by
  set F : ℝ → ℝ := fun z => lgamma z - z * log z + z with hF
  have hd : ∀ z, 0 < z → HasDerivAt F (-gapFn z) z := by
    intro z hz
    have h1 := lgamma_hasDerivAt hz
    have h2 : HasDerivAt (fun z : ℝ => z * log z) (1 * log z + z * z⁻¹) z :=
      (hasDerivAt_id z).mul (Real.hasDerivAt_log hz.ne')
    have h3 := (h1.sub h2).add (hasDerivAt_id z)
    refine HasDerivAt.congr_deriv (f := F) h3 ?_
    simp only [gapFn]
    rw [mul_inv_cancel₀ hz.ne']
    ring
  have hval : lgamma y - lgamma x - digamma x * (y - x) - y * (log y - log x) + (y - x) =
      F y - F x + gapFn x * (y - x) := by
    simp only [hF, gapFn]; ring
  rw [hval]
  rcases lt_or_gt_of_ne hxy with h | h
  · obtain ⟨c, hc, e⟩ := exists_hasDerivAt_eq_slope F (fun z => -gapFn z) h
      (fun z hz => (hd z (lt_of_lt_of_le hx hz.1)).continuousAt.continuousWithinAt)
      (fun z hz => hd z (hx.trans hz.1))
    have hg := gapFn_strictAnti hx hc.1
    have hyx : 0 < y - x := by linarith
    rw [eq_div_iff hyx.ne'] at e
    nlinarith
  · obtain ⟨c, hc, e⟩ := exists_hasDerivAt_eq_slope F (fun z => -gapFn z) h
      (fun z hz => (hd z (lt_of_lt_of_le hy hz.1)).continuousAt.continuousWithinAt)
      (fun z hz => hd z (hy.trans hz.1))
    have hg := gapFn_strictAnti (hy.trans hc.1) hc.2
    have hyx : 0 < x - y := by linarith
    rw [eq_div_iff hyx.ne'] at e
    nlinarith

end Verif.Dists
