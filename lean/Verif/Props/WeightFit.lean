import Verif.Model.Create
import Verif.Lemmas.Digamma
import Verif.Props.DistsUpdate
import Verif.Props.KL
import Mathlib.Analysis.SpecialFunctions.Log.Basic
import Mathlib.Topology.Algebra.Order.Field
import Mathlib.Analysis.SpecificLimits.Basic

/-!
# C181: what training makes of the weights of a mixture
-/

namespace Verif.Props

open Verif Verif.Dists Verif.DistSpec Verif.VB Real

/-- `ψ` is strictly increasing. -/
theorem digamma_le_iff {x y : ℝ} (hx : 0 < x) (hy : 0 < y) : digamma x ≤ digamma y ↔ x ≤ y := by
  constructor
  · intro h
    by_contra hc
    have h1 := digamma_sub_le hy (not_le.1 hc).le
    have h2 := log_lt_log hy (not_le.1 hc)
    linarith
  · intro h
    have h1 := digamma_sub_le hx h
    have h2 := log_le_log hx h
    linarith

variable {E : ℕ}

theorem oneHot_llh (c : Fin (E + 1) → ℝ) (k : Fin (E + 1)) :
    catExpLlh (List.ofFn c) (oneHot (E + 1) k) = digamma (c k) - digamma (∑ j, c j) := by
  unfold oneHot
  rw [catExpLlh_eq]
  simp

/-- The concentrations after a full step. -/
theorem weight_update (w : Fin (E + 1) → ℝ) (s : ℝ) (post : List ℝ) (hp : post.length = E + 1)
    (data : List (ℝ × List ℝ)) (hd : DataDim (E + 1) data) :
    natGradUpdate dirNatural dirFromNatural (catCreate (List.ofFn w) s).prior post
      (wsum (E + 1) (data.map fun r => (r.1, catStats r.2))) 1 = .ok (List.ofFn fun k : Fin (E + 1) => s * w k + first data k) := by
  rw [C33_dirichlet_update_adds_counts (E + 1) (by omega) _ post data (by simp [catCreate]) hp hd]
  congr 1
  apply List.ext_getElem (by simp)
  intro i h1 h2
  have hi : i < E + 1 := by simpa using h1
  have hg : (catCreate (List.ofFn w) s).prior.getD i 0 = w ⟨i, hi⟩ * s := by
    unfold catCreate
    rw [List.getD_eq_getElem _ _ (by simpa using hi), List.getElem_map, List.getElem_ofFn]
  rw [List.getElem_map, List.getElem_range, List.getElem_ofFn, hg, mul_comm]

/-- **C181.** Weights created with the values `w` and the strength `s`, after a full step with the responsibilities `data`
(`n k` in total for component `k`, `N` for all of them), whatever the posterior before. The mean weight of a component is
the compromise `(s w k + n k) / (s + N)` of the prior and of the frequency. Inference uses another number, the exponential
of the expected logarithm: it is smaller, by a factor of at most `exp (1 / (s w k + n k))`. A component without data has
a weight smaller than its mean by the factor `exp (-1 / (s w k))`, up to `(1 + 1 / (s w k)) exp (1 / (s + N))`. Both numbers
rank the components alike. -/
theorem C181_weights (w : Fin (E + 1) → ℝ) (hw : ∀ k, 0 < w k) (h1 : ∑ k, w k = 1) (s : ℝ) (hs : 0 < s)
    (post : List ℝ) (hp : post.length = E + 1) (data : List (ℝ × List ℝ)) (hd : DataDim (E + 1) data)
    (n : Fin (E + 1) → ℝ) (hn : ∀ k, n k = first data k) (hn0 : ∀ k, 0 ≤ n k) (N : ℝ) (hN : N = ∑ k, n k) :
    ∃ c, natGradUpdate dirNatural dirFromNatural (catCreate (List.ofFn w) s).prior post
        (wsum (E + 1) (data.map fun r => (r.1, catStats r.2))) 1 = .ok c
      ∧ ∀ k : Fin (E + 1), (dirMean c).getD k 0 = (s * w k + n k) / (s + N)
        ∧ exp (catExpLlh c (oneHot (E + 1) k)) ≤ (dirMean c).getD k 0
        ∧ (dirMean c).getD k 0 ≤ exp (catExpLlh c (oneHot (E + 1) k)) * exp (1 / (s * w k + n k))
        ∧ (n k = 0 → exp (catExpLlh c (oneHot (E + 1) k))
            ≤ (dirMean c).getD k 0 * exp (-1 / (s * w k)) * ((1 + 1 / (s * w k)) * exp (1 / (s + N))))
        ∧ ∀ j, exp (catExpLlh c (oneHot (E + 1) k)) ≤ exp (catExpLlh c (oneHot (E + 1) j))
            ↔ (dirMean c).getD k 0 ≤ (dirMean c).getD j 0 := by
  refine ⟨_, weight_update w s post hp data hd, ?_⟩
  have hS : ∑ k : Fin (E + 1), (s * w k + first data k) = s + N := by
    rw [Finset.sum_add_distrib, ← Finset.mul_sum, h1, hN, mul_one, Finset.sum_congr rfl fun k _ => hn k]
  have hN0 : 0 ≤ N := by rw [hN]; exact Finset.sum_nonneg fun k _ => hn0 k
  have hSp : 0 < s + N := by linarith
  have hpos : ∀ k, 0 < s * w k + n k := fun k => by have := mul_pos hs (hw k); have := hn0 k; linarith
  have hmean : ∀ k : Fin (E + 1), (dirMean (List.ofFn fun k : Fin (E + 1) => s * w k + first data k)).getD k 0
      = (s * w k + n k) / (s + N) := by
    intro k
    unfold dirMean
    rw [List.sum_ofFn, hS, List.map_ofFn, List.getD_eq_getElem _ _ (by rw [List.length_ofFn]; exact k.2), List.getElem_ofFn, hn]
    rfl
  have hllh : ∀ k : Fin (E + 1), catExpLlh (List.ofFn fun k : Fin (E + 1) => s * w k + first data k) (oneHot (E + 1) k)
      = digamma (s * w k + n k) - digamma (s + N) := by
    intro k
    rw [oneHot_llh, hS, hn]
  have hle : ∀ k, s * w k + n k ≤ s + N := by
    intro k
    rw [← hS]
    have := Finset.single_le_sum (f := fun k : Fin (E + 1) => s * w k + first data k)
      (fun k _ => by have := hpos k; rw [hn] at this; exact this.le) (Finset.mem_univ k)
    rw [hn]
    exact this
  have hexp : ∀ k, exp (log (s * w k + n k) - log (s + N)) = (s * w k + n k) / (s + N) := by
    intro k
    rw [exp_sub, exp_log (hpos k), exp_log hSp]
  intro k
  have d1 := digamma_sub_le (hpos k) (hle k)
  have d2 := log_le_digamma_add (hpos k)
  have d3 := digamma_le_log hSp
  have d4 := log_le_digamma_add hSp
  rw [hllh, hmean]
  refine ⟨rfl, ?_, ?_, ?_, fun j => ?_⟩
  · rw [← hexp]
    exact exp_le_exp.2 d1
  · rw [← hexp, ← exp_add]
    exact exp_le_exp.2 (by linarith)
  · intro h0
    rw [h0, add_zero] at *
    have hb := mul_pos hs (hw k)
    have e1 : digamma (s * w k) ≤ log (s * w k + 1) - 1 / (s * w k) := by
      have := digamma_add_one hb
      have := digamma_le_log (show 0 < s * w k + 1 by linarith)
      linarith
    have e2 : s * w k / (s + N) * exp (-1 / (s * w k)) * ((1 + 1 / (s * w k)) * exp (1 / (s + N)))
        = exp (log (s * w k + 1) - 1 / (s * w k) - (log (s + N) - 1 / (s + N))) := by
      rw [show log (s * w k + 1) - 1 / (s * w k) - (log (s + N) - 1 / (s + N))
        = log (s * w k + 1) - log (s + N) + -1 / (s * w k) + 1 / (s + N) by ring, exp_add, exp_add, exp_sub, exp_log hSp,
        exp_log (by linarith)]
      have hk := (hw k).ne'
      field_simp
    rw [e2]
    exact exp_le_exp.2 (by linarith)
  · rw [hllh, hmean, exp_le_exp, sub_le_sub_iff_right, digamma_le_iff (hpos k) (hpos j), div_le_div_iff_of_pos_right hSp]

/-- **C181 (much data).** When the data count `m` times more, `m` growing, the mean weights and the ones used for inference
both converge to the relative frequencies, whatever the prior. -/
theorem C181_limit (w : Fin (E + 1) → ℝ) (hw : ∀ k, 0 < w k) (h1 : ∑ k, w k = 1) (s : ℝ) (hs : 0 < s)
    (post : List ℝ) (hp : post.length = E + 1) (data : List (ℝ × List ℝ)) (hd : DataDim (E + 1) data)
    (n : Fin (E + 1) → ℝ) (hn : ∀ k, n k = first data k) (hn0 : ∀ k, 0 < n k) (N : ℝ) (hN : N = ∑ k, n k) :
    ∃ c : ℕ → List ℝ, (∀ m : ℕ, natGradUpdate dirNatural dirFromNatural (catCreate (List.ofFn w) s).prior post
        (wsum (E + 1) ((data.map fun r => ((m : ℝ) * r.1, r.2)).map fun r => (r.1, catStats r.2))) 1 = .ok (c m))
      ∧ ∀ k : Fin (E + 1), Filter.Tendsto (fun m => (dirMean (c m)).getD k 0) Filter.atTop (nhds (n k / N))
        ∧ Filter.Tendsto (fun m => exp (catExpLlh (c m) (oneHot (E + 1) k))) Filter.atTop (nhds (n k / N)) := by
  have hf : ∀ (m : ℕ) (k : Fin (E + 1)), (m : ℝ) * n k = first (data.map fun r => ((m : ℝ) * r.1, r.2)) k := by
    intro m k
    rw [hn]
    unfold first
    rw [List.map_map, ← List.sum_map_mul_left]
    congr 1
    refine List.map_congr_left fun r _ => ?_
    simp only [Function.comp_apply]
    ring
  have hdm : ∀ m : ℕ, DataDim (E + 1) (data.map fun r => ((m : ℝ) * r.1, r.2)) := by
    intro m r hr
    obtain ⟨q, hq, rfl⟩ := List.mem_map.1 hr
    exact hd q hq
  choose c hc using fun m : ℕ => C181_weights w hw h1 s hs post hp (data.map fun r => ((m : ℝ) * r.1, r.2)) (hdm m)
    (fun k => m * n k) (hf m) (fun k => mul_nonneg (Nat.cast_nonneg m) (hn0 k).le) (m * N)
    (by rw [hN, Finset.mul_sum])
  refine ⟨c, fun m => (hc m).1, fun k => ?_⟩
  have hNp : 0 < N := by rw [hN]; exact Finset.sum_pos (fun k _ => hn0 k) Finset.univ_nonempty
  have hinv : Filter.Tendsto (fun m : ℕ => ((m : ℝ))⁻¹) Filter.atTop (nhds 0) := tendsto_inv_atTop_nhds_zero_nat
  have hmean : Filter.Tendsto (fun m => (dirMean (c m)).getD k 0) Filter.atTop (nhds (n k / N)) := by
    have : Filter.Tendsto (fun m : ℕ => (s * w k * ((m : ℝ))⁻¹ + n k) / (s * ((m : ℝ))⁻¹ + N)) Filter.atTop
        (nhds ((s * w k * 0 + n k) / (s * 0 + N))) :=
      ((hinv.const_mul _).add_const _).div ((hinv.const_mul _).add_const _) (by simpa using hNp.ne')
    simp only [mul_zero, zero_add] at this
    refine this.congr' ?_
    filter_upwards [Filter.eventually_gt_atTop 0] with m hm
    have hm' : (0 : ℝ) < m := by exact_mod_cast hm
    rw [((hc m).2 k).1]
    have e1 : 0 < s * ((m : ℝ))⁻¹ + N := by positivity
    have e2 : 0 < s + m * N := by positivity
    field_simp
  refine ⟨hmean, ?_⟩
  have hlow : Filter.Tendsto (fun m => (dirMean (c m)).getD k 0 * exp (-(1 / (s * w k + m * n k)))) Filter.atTop (nhds (n k / N)) := by
    have h2 : Filter.Tendsto (fun m : ℕ => s * w k + m * n k) Filter.atTop Filter.atTop :=
      Filter.tendsto_atTop_add_const_left _ _ (tendsto_natCast_atTop_atTop.atTop_mul_const (hn0 k))
    have h3 : Filter.Tendsto (fun m : ℕ => exp (-(1 / (s * w k + m * n k)))) Filter.atTop (nhds (exp (-0))) := by
      refine (continuous_exp.tendsto _).comp ?_
      simp only [one_div]
      exact h2.inv_tendsto_atTop.neg
    have := hmean.mul h3
    simpa using this
  refine tendsto_of_tendsto_of_tendsto_of_le_of_le hlow hmean (fun m => ?_) (fun m => ((hc m).2 k).2.1)
  have := ((hc m).2 k).2.2.1
  calc (dirMean (c m)).getD k 0 * exp (-(1 / (s * w k + m * n k)))
      ≤ exp (catExpLlh (c m) (oneHot (E + 1) k)) * exp (1 / (s * w k + m * n k)) * exp (-(1 / (s * w k + m * n k))) :=
        mul_le_mul_of_nonneg_right this (exp_pos _).le
    _ = exp (catExpLlh (c m) (oneHot (E + 1) k)) := by rw [mul_assoc, ← exp_add, add_neg_cancel, exp_zero, mul_one]

/-! ## Examples -/

-- three components, five frames for the first one and three for the second one
example : ∃ c, natGradUpdate dirNatural dirFromNatural (catCreate (List.ofFn fun _ : Fin 3 => (1/3 : ℝ)) 1).prior [1, 1, 1]
        (wsum 3 ([((5 : ℝ), [(1 : ℝ), 0, 0]), (3, [0, 1, 0])].map fun r => (r.1, catStats r.2))) 1 = .ok c
      ∧ (dirMean c).getD 0 0 = 16/27 ∧ (dirMean c).getD 2 0 = 1/27
      ∧ exp (catExpLlh c (oneHot 3 2)) ≤ 1/27 * exp (-3) * (4 * exp (1/9)) := by
  obtain ⟨c, h1, h2⟩ := C181_weights (E := 2) (fun _ => 1/3) (fun _ => by norm_num) (by norm_num [Fin.sum_univ_three]) 1 (by norm_num)
    [1, 1, 1] rfl [(5, [1, 0, 0]), (3, [0, 1, 0])] (by simp [DataDim]) ![5, 3, 0]
    (by intro k; fin_cases k <;> simp [first]) (by intro k; fin_cases k <;> simp) 8 (by rw [Fin.sum_univ_three]; simp; norm_num)
  have hv : (![5, 3, 0] : Fin 3 → ℝ) 2 = 0 := rfl
  refine ⟨c, h1, ?_, ?_, ?_⟩
  · have := (h2 0).1
    norm_num at this ⊢
    exact this
  · have := (h2 2).1
    rw [hv] at this
    norm_num at this ⊢
    exact this
  · have h3 := (h2 2).2.2.2.1 (by simp)
    rw [(h2 2).1, hv] at h3
    norm_num at h3 ⊢
    exact h3

end Verif.Props
