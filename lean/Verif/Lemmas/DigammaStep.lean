import Verif.Lemmas.Digamma

/-!
# The increments of the digamma function decrease
-/

namespace Verif.Dists

open Filter Topology Real

/-- `ψ(x + d) − ψ(x)`. -/
noncomputable def psiStep (d x : ℝ) : ℝ := digamma (x + d) - digamma x

theorem psiStep_succ {d x : ℝ} (hd : 0 ≤ d) (hx : 0 < x) :
    psiStep d x = psiStep d (x + 1) + (1 / x - 1 / (x + d)) := by
  unfold psiStep
  rw [show x + 1 + d = x + d + 1 by ring, digamma_add_one hx, digamma_add_one (show 0 < x + d by linarith)]
  ring

theorem harmonic_gap {d x y : ℝ} (hd : 0 < d) (hx : 0 < x) (hxy : x < y) :
    1 / y - 1 / (y + d) < 1 / x - 1 / (x + d) := by
  have hy : 0 < y := hx.trans hxy
  have e : ∀ z : ℝ, 0 < z → 1 / z - 1 / (z + d) = d / (z * (z + d)) := by
    intro z hz
    have : z + d ≠ 0 := by positivity
    field_simp
    ring
  rw [e y hy, e x hx]
  exact div_lt_div_of_pos_left hd (by positivity) (by nlinarith)

theorem psiStep_abs_le {d x : ℝ} (hd : 0 ≤ d) (hx : 0 < x) : |psiStep d x| ≤ (d + 1) * (1 / x) := by
  have hxd : 0 < x + d := by linarith
  have h1 := log_le_digamma_add hx
  have h2 := digamma_le_log hxd
  have h3 := digamma_le_log hx
  have h4 := log_le_digamma_add hxd
  have h5 : log (x + d) - log x ≤ d / x := by
    rw [← log_div hxd.ne' hx.ne']
    have := log_le_sub_one_of_pos (x := (x + d) / x) (by positivity)
    have e : (x + d) / x - 1 = d / x := by field_simp; ring
    linarith
  have h6 : log x ≤ log (x + d) := log_le_log hx (by linarith)
  have h7 : 1 / (x + d) ≤ 1 / x := one_div_le_one_div_of_le hx (by linarith)
  have h8 : (d + 1) * (1 / x) = d / x + 1 / x := by ring
  have h9 : 0 ≤ d / x := by positivity
  rw [abs_le, h8]
  unfold psiStep
  constructor <;> linarith

theorem psiStep_anti {d x y : ℝ} (hd : 0 < d) (hx : 0 < x) (hxy : x < y) : psiStep d y ≤ psiStep d x := by
  have hy : 0 < y := hx.trans hxy
  have tele : ∀ n : ℕ, psiStep d (x + n) - psiStep d (y + n) ≤ psiStep d x - psiStep d y := by
    intro n
    induction n with
    | zero => simp
    | succ n ih =>
      have hx' : 0 < x + n := by positivity
      have hy' : 0 < y + n := by positivity
      have h1 := psiStep_succ hd.le hx'
      have h2 := psiStep_succ hd.le hy'
      have h3 := harmonic_gap hd hx' (show x + n < y + n by linarith)
      have e1 : x + ((n + 1 : ℕ) : ℝ) = x + n + 1 := by push_cast; ring
      have e2 : y + ((n + 1 : ℕ) : ℝ) = y + n + 1 := by push_cast; ring
      rw [e1, e2]
      linarith
  have lim : ∀ z : ℝ, 0 < z → Tendsto (fun n : ℕ => psiStep d (z + n)) atTop (𝓝 0) := by
    intro z hz
    have h0 : Tendsto (fun n : ℕ => (d + 1) * (1 / (z + n))) atTop (𝓝 0) := by
      have h1 : Tendsto (fun n : ℕ => z + (n : ℝ)) atTop atTop :=
        tendsto_atTop_add_const_left _ _ tendsto_natCast_atTop_atTop
      have h2 := (tendsto_inv_atTop_zero.comp h1).const_mul (d + 1)
      simpa [one_div, Function.comp_def] using h2
    exact squeeze_zero_norm (fun n => psiStep_abs_le hd.le (by positivity)) h0
  have hl := (lim x hx).sub (lim y hy)
  rw [sub_zero] at hl
  have := le_of_tendsto' hl tele
  linarith

theorem psiStep_strictAnti {d x y : ℝ} (hd : 0 < d) (hx : 0 < x) (hxy : x < y) : psiStep d y < psiStep d x := by
  have h1 := psiStep_succ hd.le hx
  have h2 := psiStep_succ hd.le (hx.trans hxy)
  have h3 := harmonic_gap hd hx hxy
  have h4 := psiStep_anti hd (show 0 < x + 1 by linarith) (show x + 1 < y + 1 by linarith)
  linarith

/-- `ψ(x) − ψ(x + c)` strictly increases with `x`. -/
theorem psi_share_lt {c d x : ℝ} (hc : 0 < c) (hd : 0 < d) (hx : 0 < x) :
    digamma x - digamma (x + c) < digamma (x + d) - digamma (x + d + c) := by
  have := psiStep_strictAnti hd hx (show x < x + c by linarith)
  unfold psiStep at this
  rw [show x + d + c = x + c + d by ring]
  linarith

end Verif.Dists
