import Mathlib.MeasureTheory.Integral.MeanInequalities
import Mathlib.Probability.Distributions.Beta
import Verif.Lemmas.Digamma

/-!
# Log-convexity of the Beta function, and the Bregman divergence of `ln B`
-/

namespace Verif.Dists

open Real Set MeasureTheory ProbabilityTheory ENNReal

/-- `ln B(x, y)`. -/
noncomputable def logBeta (x y : ℝ) : ℝ := lgamma x + lgamma y - lgamma (x + y)

theorem log_beta {x y : ℝ} (hx : 0 < x) (hy : 0 < y) : Real.log (beta x y) = logBeta x y := by
  unfold beta logBeta lgamma
  rw [Real.log_div (mul_pos (Real.Gamma_pos_of_pos hx) (Real.Gamma_pos_of_pos hy)).ne'
    (Real.Gamma_pos_of_pos (add_pos hx hy)).ne',
    Real.log_mul (Real.Gamma_pos_of_pos hx).ne' (Real.Gamma_pos_of_pos hy).ne']

theorem lintegral_beta {x y : ℝ} (hx : 0 < x) (hy : 0 < y) :
    ∫⁻ t in Ioo (0:ℝ) 1, ENNReal.ofReal (t ^ (x - 1) * (1 - t) ^ (y - 1)) =
      ENNReal.ofReal (beta x y) := by
  have hb := beta_pos hx hy
  have h := lintegral_betaPDF_eq_one hx hy
  rw [lintegral_betaPDF] at h
  have e : ∀ t : ℝ, ENNReal.ofReal (1 / beta x y * t ^ (x - 1) * (1 - t) ^ (y - 1)) =
      ENNReal.ofReal (1 / beta x y) * ENNReal.ofReal (t ^ (x - 1) * (1 - t) ^ (y - 1)) := by
    intro t
    rw [← ENNReal.ofReal_mul (by positivity), mul_assoc]
  simp_rw [e] at h
  rw [lintegral_const_mul' _ _ ENNReal.ofReal_ne_top] at h
  set I := ∫⁻ t in Ioo (0:ℝ) 1, ENNReal.ofReal (t ^ (x - 1) * (1 - t) ^ (y - 1))
  have h2 : ENNReal.ofReal (beta x y) * (ENNReal.ofReal (1 / beta x y) * I) =
      ENNReal.ofReal (beta x y) := by rw [h, mul_one]
  rw [← mul_assoc, ← ENNReal.ofReal_mul hb.le, mul_one_div_cancel hb.ne', ENNReal.ofReal_one,
    one_mul] at h2
  exact h2

theorem beta_convex {x y x' y' p q : ℝ} (hx : 0 < x) (hy : 0 < y) (hx' : 0 < x') (hy' : 0 < y')
    (hp : 0 ≤ p) (hq : 0 ≤ q) (hpq : p + q = 1) :
    beta (p * x + q * x') (p * y + q * y') ≤ beta x y ^ p * beta x' y' ^ q := by
  have hX : 0 < p * x + q * x' := by
    rcases hp.eq_or_lt with rfl | hp'
    · have : q = 1 := by linarith
      subst this; linarith
    · have : 0 < p * x := by positivity
      have : 0 ≤ q * x' := by positivity
      linarith
  have hY : 0 < p * y + q * y' := by
    rcases hp.eq_or_lt with rfl | hp'
    · have : q = 1 := by linarith
      subst this; linarith
    · have : 0 < p * y := by positivity
      have : 0 ≤ q * y' := by positivity
      linarith
  have hm : ∀ u v : ℝ, AEMeasurable
      (fun t : ℝ => ENNReal.ofReal (t ^ (u - 1) * (1 - t) ^ (v - 1)))
      (volume.restrict (Ioo (0:ℝ) 1)) := by
    intro u v
    exact Measurable.aemeasurable (by fun_prop)
  have key := ENNReal.lintegral_mul_norm_pow_le (hm x y) (hm x' y') hp hq hpq
  rw [lintegral_beta hx hy, lintegral_beta hx' hy'] at key
  have hl : ∫⁻ t in Ioo (0:ℝ) 1,
      ENNReal.ofReal (t ^ (x - 1) * (1 - t) ^ (y - 1)) ^ p *
      ENNReal.ofReal (t ^ (x' - 1) * (1 - t) ^ (y' - 1)) ^ q =
      ENNReal.ofReal (beta (p * x + q * x') (p * y + q * y')) := by
    rw [← lintegral_beta hX hY]
    apply setLIntegral_congr_fun measurableSet_Ioo
    intro t ht
    have h0 : 0 < t := ht.1
    have h1 : 0 < 1 - t := by linarith [ht.2]
    simp only
    rw [ENNReal.ofReal_rpow_of_nonneg (by positivity) hp,
      ENNReal.ofReal_rpow_of_nonneg (by positivity) hq, ← ENNReal.ofReal_mul (by positivity)]
    congr 1
    rw [Real.mul_rpow (by positivity) (by positivity), Real.mul_rpow (by positivity) (by positivity),
      ← Real.rpow_mul h0.le, ← Real.rpow_mul h1.le, ← Real.rpow_mul h0.le, ← Real.rpow_mul h1.le,
      mul_mul_mul_comm, ← Real.rpow_add h0, ← Real.rpow_add h1]
    have hq' : q = 1 - p := by linarith
    subst hq'
    congr 2 <;> ring
  rw [hl, ENNReal.ofReal_rpow_of_nonneg (beta_pos hx hy).le hp,
    ENNReal.ofReal_rpow_of_nonneg (beta_pos hx' hy').le hq,
    ← ENNReal.ofReal_mul (Real.rpow_nonneg (beta_pos hx hy).le _)] at key
  exact (ENNReal.ofReal_le_ofReal_iff (mul_nonneg (Real.rpow_nonneg (beta_pos hx hy).le _)
    (Real.rpow_nonneg (beta_pos hx' hy').le _))).1 key

theorem convex_pos {x x' p q : ℝ} (hx : 0 < x) (hx' : 0 < x') (hp : 0 ≤ p) (hq : 0 ≤ q)
    (hpq : p + q = 1) : 0 < p * x + q * x' := by
  rcases hp.eq_or_lt with rfl | hp'
  · have : q = 1 := by linarith
    subst this; linarith
  · have : 0 < p * x := by positivity
    have : 0 ≤ q * x' := by positivity
    linarith

theorem logBeta_convex {x y x' y' p q : ℝ} (hx : 0 < x) (hy : 0 < y) (hx' : 0 < x') (hy' : 0 < y')
    (hp : 0 ≤ p) (hq : 0 ≤ q) (hpq : p + q = 1) :
    logBeta (p * x + q * x') (p * y + q * y') ≤ p * logBeta x y + q * logBeta x' y' := by
  have hX := convex_pos hx hx' hp hq hpq
  have hY := convex_pos hy hy' hp hq hpq
  have h := Real.log_le_log (beta_pos hX hY) (beta_convex hx hy hx' hy' hp hq hpq)
  rw [Real.log_mul (Real.rpow_pos_of_pos (beta_pos hx hy) _).ne'
    (Real.rpow_pos_of_pos (beta_pos hx' hy') _).ne', Real.log_rpow (beta_pos hx hy),
    Real.log_rpow (beta_pos hx' hy'), log_beta hX hY, log_beta hx hy, log_beta hx' hy'] at h
  exact h

/-! ## Strictness at the midpoint -/

theorem logBeta_20 {x y : ℝ} (hx : 0 < x) (hy : 0 < y) :
    logBeta (x + 2) y = logBeta x y + Real.log (x * (x + 1) / ((x + y) * (x + y + 1))) := by
  have h1 := lgamma_add_one hx
  have h2 := lgamma_add_one (show 0 < x + 1 by linarith)
  have h3 := lgamma_add_one (show 0 < x + y by linarith)
  have h4 := lgamma_add_one (show 0 < x + y + 1 by linarith)
  have e1 : x + 2 = x + 1 + 1 := by ring
  have e2 : x + 2 + y = x + y + 1 + 1 := by ring
  rw [Real.log_div (by positivity) (by positivity), Real.log_mul (by positivity) (by positivity),
    Real.log_mul (by positivity) (by positivity)]
  unfold logBeta
  rw [e2, e1, h2, h4, h1, h3]
  ring

theorem logBeta_11 {x y : ℝ} (hx : 0 < x) (hy : 0 < y) :
    logBeta (x + 1) (y + 1) = logBeta x y + Real.log (x * y / ((x + y) * (x + y + 1))) := by
  have h1 := lgamma_add_one hx
  have h2 := lgamma_add_one hy
  have h3 := lgamma_add_one (show 0 < x + y by linarith)
  have h4 := lgamma_add_one (show 0 < x + y + 1 by linarith)
  have e2 : x + 1 + (y + 1) = x + y + 1 + 1 := by ring
  rw [Real.log_div (by positivity) (by positivity), Real.log_mul (by positivity) (by positivity),
    Real.log_mul (by positivity) (by positivity)]
  unfold logBeta
  rw [e2, h4, h1, h3, h2]
  ring

theorem logBeta_comm (x y : ℝ) : logBeta x y = logBeta y x := by
  unfold logBeta; rw [add_comm x y]; ring

theorem logBeta_02 {x y : ℝ} (hx : 0 < x) (hy : 0 < y) :
    logBeta x (y + 2) = logBeta x y + Real.log (y * (y + 1) / ((x + y) * (x + y + 1))) := by
  rw [logBeta_comm, logBeta_20 hy hx, logBeta_comm y x, add_comm y x]

theorem sq_le_of_log_midpoint {c a b : ℝ} (hc : 0 < c) (ha : 0 < a) (hb : 0 < b)
    (h : Real.log c ≤ (Real.log a + Real.log b) / 2) : c ^ 2 ≤ a * b := by
  have h1 : Real.log (c ^ 2) ≤ Real.log (a * b) := by
    rw [Real.log_pow, Real.log_mul ha.ne' hb.ne']; push_cast; linarith
  exact (Real.log_le_log_iff (by positivity) (by positivity)).1 h1

theorem amgm_of_sq {a b c : ℝ} (ha : 0 < a) (hb : 0 < b) (hc : 0 < c) (h : c ^ 2 ≤ a * b) :
    c ≤ (a + b) / 2 := by
  nlinarith [sq_nonneg (a - b)]

theorem eq_of_mean_sq {a b c : ℝ} (hq : c = (a + b) / 2) (h : c ^ 2 ≤ a * b) : a = b := by
  rw [hq] at h
  have h1 : (a - b) ^ 2 ≤ 0 := by nlinarith
  have h2 : (a - b) ^ 2 = 0 := le_antisymm h1 (sq_nonneg _)
  have h3 : a - b = 0 := by simpa using h2
  linarith

theorem logBeta_midpoint_strict {x y x' y' : ℝ} (hx : 0 < x) (hy : 0 < y) (hx' : 0 < x')
    (hy' : 0 < y') (hne : ¬ (x = x' ∧ y = y')) :
    logBeta ((x + x') / 2) ((y + y') / 2) < (logBeta x y + logBeta x' y') / 2 := by
  by_contra hcon
  push Not at hcon
  set X := (x + x') / 2 with hX
  set Y := (y + y') / 2 with hY
  have hXp : 0 < X := by positivity
  have hYp : 0 < Y := by positivity
  have half : ∀ u v u' v' : ℝ, 0 < u → 0 < v → 0 < u' → 0 < v' →
      logBeta ((u + u') / 2) ((v + v') / 2) ≤ (logBeta u v + logBeta u' v') / 2 := by
    intro u v u' v' h1 h2 h3 h4
    have := logBeta_convex (p := 1/2) (q := 1/2) h1 h2 h3 h4 (by norm_num) (by norm_num)
      (by norm_num)
    rw [show (u + u') / 2 = 1/2 * u + 1/2 * u' by ring,
      show (v + v') / 2 = 1/2 * v + 1/2 * v' by ring]
    linarith
  have k0 := half (x + 2) y (x' + 2) y' (by linarith) hy (by linarith) hy'
  have k1 := half (x + 1) (y + 1) (x' + 1) (y' + 1) (by linarith) (by linarith) (by linarith)
    (by linarith)
  have k2 := half x (y + 2) x' (y' + 2) hx (by linarith) hx' (by linarith)
  rw [show (x + 2 + (x' + 2)) / 2 = X + 2 by rw [hX]; ring, ← hY, logBeta_20 hXp hYp,
    logBeta_20 hx hy, logBeta_20 hx' hy'] at k0
  rw [show (x + 1 + (x' + 1)) / 2 = X + 1 by rw [hX]; ring,
    show (y + 1 + (y' + 1)) / 2 = Y + 1 by rw [hY]; ring, logBeta_11 hXp hYp,
    logBeta_11 hx hy, logBeta_11 hx' hy'] at k1
  rw [show (y + 2 + (y' + 2)) / 2 = Y + 2 by rw [hY]; ring, ← hX, logBeta_02 hXp hYp,
    logBeta_02 hx hy, logBeta_02 hx' hy'] at k2
  have j0 := sq_le_of_log_midpoint (c := X * (X + 1) / ((X + Y) * (X + Y + 1)))
    (a := x * (x + 1) / ((x + y) * (x + y + 1)))
    (b := x' * (x' + 1) / ((x' + y') * (x' + y' + 1)))
    (by positivity) (by positivity) (by positivity) (by clear * - k0 k1 k2 hcon; linarith)
  have j1 := sq_le_of_log_midpoint (c := X * Y / ((X + Y) * (X + Y + 1)))
    (a := x * y / ((x + y) * (x + y + 1)))
    (b := x' * y' / ((x' + y') * (x' + y' + 1)))
    (by positivity) (by positivity) (by positivity) (by clear * - k0 k1 k2 hcon; linarith)
  have j2 := sq_le_of_log_midpoint (c := Y * (Y + 1) / ((X + Y) * (X + Y + 1)))
    (a := y * (y + 1) / ((x + y) * (x + y + 1)))
    (b := y' * (y' + 1) / ((x' + y') * (x' + y' + 1)))
    (by positivity) (by positivity) (by positivity) (by clear * - k0 k1 k2 hcon; linarith)
  have tot : ∀ u v : ℝ, 0 < u → 0 < v → u * (u + 1) / ((u + v) * (u + v + 1)) +
      2 * (u * v / ((u + v) * (u + v + 1))) + v * (v + 1) / ((u + v) * (u + v + 1)) = 1 := by
    intro u v hu hv
    field_simp
    ring
  have tc := tot X Y hXp hYp
  have ta := tot x y hx hy
  have tb := tot x' y' hx' hy'
  have hc0 : 0 < X * (X + 1) / ((X + Y) * (X + Y + 1)) := by positivity
  have hc1 : 0 < X * Y / ((X + Y) * (X + Y + 1)) := by positivity
  have hc2 : 0 < Y * (Y + 1) / ((X + Y) * (X + Y + 1)) := by positivity
  have ha0 : 0 < x * (x + 1) / ((x + y) * (x + y + 1)) := by positivity
  have ha1 : 0 < x * y / ((x + y) * (x + y + 1)) := by positivity
  have ha2 : 0 < y * (y + 1) / ((x + y) * (x + y + 1)) := by positivity
  have hb0 : 0 < x' * (x' + 1) / ((x' + y') * (x' + y' + 1)) := by positivity
  have hb1 : 0 < x' * y' / ((x' + y') * (x' + y' + 1)) := by positivity
  have hb2 : 0 < y' * (y' + 1) / ((x' + y') * (x' + y' + 1)) := by positivity
  generalize e0 : X * (X + 1) / ((X + Y) * (X + Y + 1)) = C0 at *
  generalize e1 : X * Y / ((X + Y) * (X + Y + 1)) = C1 at *
  generalize e2 : Y * (Y + 1) / ((X + Y) * (X + Y + 1)) = C2 at *
  generalize e3 : x * (x + 1) / ((x + y) * (x + y + 1)) = A0 at *
  generalize e4 : x * y / ((x + y) * (x + y + 1)) = A1 at *
  generalize e5 : y * (y + 1) / ((x + y) * (x + y + 1)) = A2 at *
  generalize e6 : x' * (x' + 1) / ((x' + y') * (x' + y' + 1)) = B0 at *
  generalize e7 : x' * y' / ((x' + y') * (x' + y' + 1)) = B1 at *
  generalize e8 : y' * (y' + 1) / ((x' + y') * (x' + y' + 1)) = B2 at *
  have m0 := amgm_of_sq ha0 hb0 hc0 j0
  have m1 := amgm_of_sq ha1 hb1 hc1 j1
  have m2 := amgm_of_sq ha2 hb2 hc2 j2
  have d0 : A0 = B0 := eq_of_mean_sq (by clear * - m0 m1 m2 tc ta tb; linarith) j0
  have d1 : A1 = B1 := eq_of_mean_sq (by clear * - m0 m1 m2 tc ta tb; linarith) j1
  have d2 : A2 = B2 := eq_of_mean_sq (by clear * - m0 m1 m2 tc ta tb; linarith) j2
  -- ratios
  have r0 : (x + 1) * y' = (x' + 1) * y := by
    have h1 : A0 / A1 = (x + 1) / y := by rw [← e3, ← e4]; field_simp
    have h2 : B0 / B1 = (x' + 1) / y' := by rw [← e6, ← e7]; field_simp
    rw [d0, d1, h2, div_eq_div_iff hy'.ne' hy.ne'] at h1
    clear * - h1
    linarith
  have r2 : (y + 1) * x' = (y' + 1) * x := by
    have h1 : A2 / A1 = (y + 1) / x := by rw [← e5, ← e4]; field_simp
    have h2 : B2 / B1 = (y' + 1) / x' := by rw [← e8, ← e7]; field_simp
    rw [d2, d1, h2, div_eq_div_iff hx'.ne' hx.ne'] at h1
    clear * - h1
    linarith
  have s1 : x' + y' = x + y := by clear * - r0 r2; linarith
  have s2 : (x + y + 1) * (x - x') = 0 := by
    have hy2 : y' = x + y - x' := by clear * - s1; linarith
    clear * - r0 hy2
    rw [hy2] at r0
    linear_combination r0
  have hxe : x = x' := by
    clear * - s2 hx hy
    rcases mul_eq_zero.1 s2 with h | h <;> linarith
  exact hne ⟨hxe, by clear * - hxe s1; linarith⟩

/-! ## Bregman divergence of `ln B` -/

/-- Bregman divergence of `lnΓ`. -/
noncomputable def bregL (a b : ℝ) : ℝ := lgamma b - lgamma a - digamma a * (b - a)

theorem beta_bregman_nonneg {a b a' b' : ℝ} (ha : 0 < a) (hb : 0 < b) (ha' : 0 < a')
    (hb' : 0 < b') : bregL (a + b) (a' + b') ≤ bregL a a' + bregL b b' := by
  set φ : ℝ → ℝ := fun t => logBeta (a + t * (a' - a)) (b + t * (b' - b)) with hφ
  have hconv : ConvexOn ℝ (Icc 0 1) φ := by
    refine ⟨convex_Icc 0 1, ?_⟩
    intro s hs t ht p q hp hq hpq
    have pos : ∀ u u' r : ℝ, 0 < u → 0 < u' → r ∈ Icc (0:ℝ) 1 → 0 < u + r * (u' - u) := by
      intro u u' r hu hu' hr
      have := convex_pos hu hu' (p := 1 - r) (q := r) (by linarith [hr.2]) hr.1 (by ring)
      linarith
    have h := logBeta_convex (pos a a' s ha ha' hs) (pos b b' s hb hb' hs)
      (pos a a' t ha ha' ht) (pos b b' t hb hb' ht) hp hq hpq
    simp only [hφ, smul_eq_mul]
    have hq' : q = 1 - p := by linarith
    subst hq'
    have e1 : a + (p * s + (1 - p) * t) * (a' - a) =
      p * (a + s * (a' - a)) + (1 - p) * (a + t * (a' - a)) := by ring
    have e2 : b + (p * s + (1 - p) * t) * (b' - b) =
      p * (b + s * (b' - b)) + (1 - p) * (b + t * (b' - b)) := by ring
    rw [e1, e2]
    exact h
  have hline : ∀ u d : ℝ, 0 < u → HasDerivAt (fun t : ℝ => lgamma (u + t * d)) (digamma u * d) 0 := by
    intro u d hu
    have h1 : HasDerivAt (fun t : ℝ => u + t * d) d 0 := by
      simpa using ((hasDerivAt_id (0:ℝ)).mul_const d).const_add u
    have h2 : HasDerivAt lgamma (digamma u) (u + 0 * d) := by
      simpa using lgamma_hasDerivAt hu
    exact HasDerivAt.comp (h₂ := lgamma) (h := fun t : ℝ => u + t * d) (0:ℝ) h2 h1
  have hder : HasDerivAt φ (digamma a * (a' - a) + digamma b * (b' - b) -
      digamma (a + b) * ((a' - a) + (b' - b))) 0 := by
    have h1 := hline a (a' - a) ha
    have h2 := hline b (b' - b) hb
    have h3 := hline (a + b) ((a' - a) + (b' - b)) (by linarith)
    have h4 := (h1.add h2).sub h3
    refine h4.congr_of_eventuallyEq (Filter.Eventually.of_forall fun t => ?_)
    show logBeta (a + t * (a' - a)) (b + t * (b' - b)) =
      lgamma (a + t * (a' - a)) + lgamma (b + t * (b' - b)) -
        lgamma (a + b + t * ((a' - a) + (b' - b)))
    unfold logBeta
    congr 2
    ring
  have h := hconv.le_slope_of_hasDerivAt (x := 0) (y := 1) (by simp) (by simp) (by norm_num) hder
  rw [slope_def_field] at h
  simp only [hφ, logBeta, one_mul, zero_mul, add_zero, add_sub_cancel, sub_zero, div_one] at h
  unfold bregL
  linarith

theorem beta_bregman_eq {a b a' b' : ℝ} (ha : 0 < a) (hb : 0 < b) (ha' : 0 < a') (hb' : 0 < b')
    (h : bregL a a' + bregL b b' ≤ bregL (a + b) (a' + b')) : a = a' ∧ b = b' := by
  by_contra hne
  have h1 := logBeta_midpoint_strict ha hb ha' hb' hne
  have h2 := beta_bregman_nonneg ha hb (show 0 < (a + a') / 2 by positivity)
    (show 0 < (b + b') / 2 by positivity)
  unfold bregL at h h2
  unfold logBeta at h1
  rw [show (a + a') / 2 + (b + b') / 2 = (a + b + (a' + b')) / 2 by ring] at h1 h2
  nlinarith

end Verif.Dists
