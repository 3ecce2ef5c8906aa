import Verif.Model.NormalFit
import Verif.Spec.NormalFit
import Verif.Props.Create
import Verif.Props.DistsUpdate
import Verif.Props.NormalWishart
import Mathlib.Topology.Instances.Matrix
import Mathlib.Analysis.SpecificLimits.Basic

/-!
# Lemmas for the training of a Normal model
-/

namespace Verif.Props

open Matrix Verif.VB Verif.Dists Verif.DistSpec Verif.FitSpec Filter Topology

variable {D : ℕ}

theorem effSize_pos (data : List (Fin D → ℝ)) (datasize : ℤ) (h : data ≠ []) : 0 < effSize data datasize := by
  have : 0 < data.length := List.length_pos_of_ne_nil h
  unfold effSize
  split_ifs with h0
  · exact_mod_cast this
  · exact_mod_cast (not_le.1 h0)

theorem batchScale_eff (data : List (Fin D → ℝ)) (datasize : ℤ) (h : data ≠ []) :
    batchScale data.length datasize = .ok (effSize data datasize / data.length) := by
  unfold batchScale
  rw [if_neg (by simpa using h)]
  rfl

theorem normalAcc_eq {X P : Type} (fam : Family X P) (data : List X) (c : ℝ) :
    normalAcc fam data c = wsum fam.sdim ((data.map fun x => (c, x)).map fun r => (r.1, fam.stats r.2)) := by
  unfold normalAcc
  rw [vsmul_wsum, List.map_map, List.map_map]
  congr 1
  simp [Function.comp_def]

theorem sum_second (data : List (Fin D → ℝ)) (h : data ≠ []) (i j : Fin D) :
    (data.map fun x => x i * x j).sum = data.length * (sampleCov data i j + sampleMean data i * sampleMean data j) := by
  have hn : (data.length : ℝ) ≠ 0 := by
    have := List.length_pos_of_ne_nil h
    exact_mod_cast this.ne'
  have key : ∀ (l : List (Fin D → ℝ)) (a b : ℝ), (l.map fun x => (x i - a) * (x j - b)).sum =
      (l.map fun x => x i * x j).sum - b * (l.map fun x => x i).sum - a * (l.map fun x => x j).sum + l.length * (a * b) := by
    intro l a b
    induction l with
    | nil => simp
    | cons x l ih => simp only [List.map_cons, List.sum_cons, List.length_cons, ih]; push_cast; ring
  have e1 : (data.map fun x => x i).sum = data.length * sampleMean data i := by unfold sampleMean; field_simp
  have e2 : (data.map fun x => x j).sum = data.length * sampleMean data j := by unfold sampleMean; field_simp
  have e3 : sampleCov data i j * data.length =
      (data.map fun x => (x i - sampleMean data i) * (x j - sampleMean data j)).sum := by
    unfold sampleCov; rw [Matrix.of_apply]; field_simp
  rw [key, e1, e2] at e3
  linarith

theorem sum_first (data : List (Fin D → ℝ)) (h : data ≠ []) (i : Fin D) :
    (data.map fun x => x i).sum = data.length * sampleMean data i := by
  have hn : (data.length : ℝ) ≠ 0 := by
    have := List.length_pos_of_ne_nil h
    exact_mod_cast this.ne'
  unfold sampleMean; field_simp

theorem sum_const_mul {X : Type} (l : List X) (c : ℝ) (f : X → ℝ) : (l.map fun x => c * f x).sum = c * (l.map f).sum := by
  induction l with
  | nil => simp
  | cons x l ih => simp only [List.map_cons, List.sum_cons, ih]; ring

theorem update_of {X P : Type} (fam : Family X P) (c : CParam P) (stats : List ℝ) (l : ℝ) (n0 n1 : List ℝ) (p : P)
    (e0 : fam.natural c.prior = .ok n0) (e1 : fam.natural c.post = .ok n1) (h0 : n0.length = stats.length)
    (h1 : n0.length = n1.length) (hf : fam.fromNatural (vadd n1 (vsmul l (vsub (vadd n0 stats) n1))) = .ok p) :
    fam.update c stats l = .ok ⟨c.prior, p⟩ := by
  unfold Family.update
  rw [e0, e1]
  show (if _ then _ else _) = _
  rw [if_neg (by simp [h0, ← h1]), hf]
  rfl

theorem rows_count (data : List (Fin D → ℝ)) (h : data ≠ []) (n : ℝ) :
    (data.map fun _ => n / (data.length : ℝ)).sum = n := by
  have hl : (data.length : ℝ) ≠ 0 := by
    have := List.length_pos_of_ne_nil h
    exact_mod_cast this.ne'
  rw [List.map_const', List.sum_replicate, nsmul_eq_mul]
  field_simp

theorem map_range_ofFn (f : ℕ → ℝ) : (List.range D).map f = List.ofFn fun i : Fin D => f i := by
  apply List.ext_getElem <;> simp

/-- The identity behind the textbook posteriors. -/
theorem scatter_eq (s n a b c d v : ℝ) (h : s + n ≠ 0) :
    n * (v + c * d) + s * (a * b) - (s + n) * ((s * a + n * c) / (s + n) * ((s * b + n * d) / (s + n))) =
      n * v + s * n / (s + n) * ((c - a) * (d - b)) := by
  field_simp
  ring

theorem ng_fit (prior q : NG ℝ) (data : List (Fin D → ℝ)) (datasize : ℤ) (h : data ≠ []) (hp : NGValid D prior)
    (hq : NGValid D q) :
    let n := effSize data datasize
    let k := prior.scale + n
    let m := fun i : Fin D => (prior.scale * prior.mean.getD i 0 + n * sampleMean data i) / k
    (ngFam D).update ⟨prior, q⟩ (normalAcc (ngFam D) (data.map List.ofFn) (n / data.length)) 1 =
      .ok ⟨prior, ⟨List.ofFn m, k, prior.shape + n / 2, List.ofFn fun i : Fin D => prior.rates.getD i 0 +
        (n * (sampleCov data i i + sampleMean data i * sampleMean data i) +
          prior.scale * prior.mean.getD i 0 ^ 2 - k * m i ^ 2) / 2⟩⟩ := by
  intro n k m
  have hn : 0 < n := effSize_pos data datasize h
  have hl : (data.length : ℝ) ≠ 0 := by
    have := List.length_pos_of_ne_nil h
    exact_mod_cast this.ne'
  obtain ⟨h1, h2, h3, -, -⟩ := hp
  obtain ⟨q1, q2, -, -, -⟩ := hq
  set rows : List (ℝ × List ℝ) := (data.map List.ofFn).map fun x => (n / data.length, x) with hrows
  have hd : DataDim D rows := by
    intro r hr
    obtain ⟨x, hx, rfl⟩ := List.mem_map.1 hr
    obtain ⟨y, hy, rfl⟩ := List.mem_map.1 hx
    simp
  have hc : count rows = n := by
    rw [← rows_count data h n]
    simp only [hrows, count, List.map_map, Function.comp_def]
  have hf : ∀ i : Fin D, first rows i = n * sampleMean data i := by
    intro i
    simp only [hrows, first, List.map_map, Function.comp_def]
    have : ∀ x : Fin D → ℝ, (List.ofFn x).getD (i : ℕ) 0 = x i := fun x => by simp [List.getD_eq_getElem?_getD]
    simp only [this]
    rw [sum_const_mul, sum_first data h]
    field_simp
  have hs : ∀ i : Fin D, second rows i = n * (sampleCov data i i + sampleMean data i * sampleMean data i) := by
    intro i
    simp only [hrows, second, List.map_map, Function.comp_def]
    have : ∀ x : Fin D → ℝ, (List.ofFn x).getD (i : ℕ) 0 ^ 2 = x i * x i := fun x => by
      simp [List.getD_eq_getElem?_getD, sq]
    simp only [this]
    rw [sum_const_mul, sum_second data h]
    field_simp
  have hk : prior.scale + count rows ≠ 0 := by rw [hc]; positivity
  have key := C35_normalgamma_textbook_update D prior q rows h1 h2 q1 q2 hd hk
  dsimp only at key
  have hlen : (wsum (2 * D + 2) (rows.map fun r => (r.1, ngStats r.2))).length = 2 * D + 2 := by
    apply length_wsum
    intro r hr
    obtain ⟨r', hr', rfl⟩ := List.mem_map.1 hr
    have := hd r' hr'
    simp [ngStats, this]
    omega
  rw [normalAcc_eq]
  have hL : ∀ p : NG ℝ, p.mean.length = D → p.rates.length = D → (ngNatural p).length = 2 * D + 2 := by
    intro p a b
    simp [ngNatural, a, b]
    omega
  refine update_of _ _ _ _ (ngNatural prior) (ngNatural q) _ rfl rfl ?_ (by rw [hL _ h1 h2, hL _ q1 q2]) ?_
  · rw [hL _ h1 h2]
    exact hlen.symm
  refine Eq.trans key ?_
  rw [map_range_ofFn, map_range_ofFn, hc]
  simp only [hf, hs]
  rfl

theorem ing_fit (prior q : ING ℝ) (data : List (Fin D → ℝ)) (datasize : ℤ) (h : data ≠ []) (hp : INGValid D prior)
    (hq : INGValid D q) :
    let n := effSize data datasize
    let k := prior.scale + n
    let m := fun i : Fin D => (prior.scale * prior.mean.getD i 0 + n * sampleMean data i) / k
    (ingFam D).update ⟨prior, q⟩ (normalAcc (ingFam D) (data.map List.ofFn) (n / data.length)) 1 =
      .ok ⟨prior, ⟨List.ofFn m, k, prior.shape + D / 2 * n, prior.rate +
        (∑ i : Fin D, (n * (sampleCov data i i + sampleMean data i * sampleMean data i) +
          prior.scale * prior.mean.getD i 0 ^ 2 - k * m i ^ 2)) / 2⟩⟩ := by
  intro n k m
  have hn : 0 < n := effSize_pos data datasize h
  have hl : (data.length : ℝ) ≠ 0 := by
    have := List.length_pos_of_ne_nil h
    exact_mod_cast this.ne'
  obtain ⟨h1, h3, -, -⟩ := hp
  obtain ⟨q1, -, -, -⟩ := hq
  set rows : List (ℝ × List ℝ) := (data.map List.ofFn).map fun x => (n / data.length, x) with hrows
  have hd : DataDim D rows := by
    intro r hr
    obtain ⟨x, hx, rfl⟩ := List.mem_map.1 hr
    obtain ⟨y, hy, rfl⟩ := List.mem_map.1 hx
    simp
  have hc : count rows = n := by
    rw [← rows_count data h n]
    simp only [hrows, count, List.map_map, Function.comp_def]
  have hf : ∀ i : Fin D, first rows i = n * sampleMean data i := by
    intro i
    simp only [hrows, first, List.map_map, Function.comp_def]
    have : ∀ x : Fin D → ℝ, (List.ofFn x).getD (i : ℕ) 0 = x i := fun x => by simp [List.getD_eq_getElem?_getD]
    simp only [this]
    rw [sum_const_mul, sum_first data h]
    field_simp
  have hs : isoSecond rows = ∑ i : Fin D, n * (sampleCov data i i + sampleMean data i * sampleMean data i) := by
    simp only [hrows, isoSecond, List.map_map, Function.comp_def]
    have : ∀ x : Fin D → ℝ, ((List.ofFn x).map (· ^ 2)).sum = ∑ i, x i * x i := fun x => by
      rw [List.map_ofFn, List.sum_ofFn]
      exact Finset.sum_congr rfl fun i _ => by simp [sq]
    simp only [this]
    rw [sum_const_mul]
    have sw : ∀ l : List (Fin D → ℝ), (l.map fun x => ∑ i, x i * x i).sum = ∑ i, (l.map fun x => x i * x i).sum := by
      intro l
      induction l with
      | nil => simp
      | cons x l ih => simp only [List.map_cons, List.sum_cons, ih, Finset.sum_add_distrib]
    rw [sw, Finset.mul_sum]
    refine Finset.sum_congr rfl fun i _ => ?_
    rw [sum_second data h]
    field_simp
  have hk : prior.scale + count rows ≠ 0 := by rw [hc]; positivity
  have key := C36_isonormalgamma_conjugate_update D prior q rows h1 q1 hd hk
  dsimp only at key
  have hlen : (wsum (D + 3) (rows.map fun r => (r.1, ingStats r.2))).length = D + 3 := by
    apply length_wsum
    intro r hr
    obtain ⟨r', hr', rfl⟩ := List.mem_map.1 hr
    have := hd r' hr'
    simp [ingStats, this]
  rw [normalAcc_eq]
  have hL : ∀ p : ING ℝ, p.mean.length = D → (ingNatural p).length = D + 3 := by
    intro p a
    simp [ingNatural, a]
  refine update_of _ _ _ _ (ingNatural prior) (ingNatural q) _ rfl rfl ?_ (by rw [hL _ h1, hL _ q1]) ?_
  · rw [hL _ h1]
    exact hlen.symm
  refine Eq.trans key ?_
  have hm0 : (prior.mean.map (· ^ 2)).sum = ∑ i : Fin D, prior.mean.getD i 0 ^ 2 := by
    have : prior.mean = List.ofFn fun i : Fin D => prior.mean.getD i 0 := by
      apply List.ext_getElem
      · simp [h1]
      · intro i a b
        simp [List.getD_eq_getElem?_getD, List.getElem?_eq_getElem a]
    conv_lhs => rw [this]
    rw [List.map_ofFn, List.sum_ofFn]
    rfl
  rw [map_range_ofFn, map_range_ofFn, hc, hs, hm0, List.sum_ofFn]
  simp only [hf]
  simp only [Finset.sum_add_distrib, Finset.sum_sub_distrib, Finset.mul_sum]
  rfl

theorem nw_fit (prior q : NW D) (data : List (Fin D → ℝ)) (datasize : ℤ) (h : data ≠ []) (hp : NWValid prior)
    (hq : NWValid q) :
    let n := effSize data datasize
    let k := prior.scale + n
    let m := fun i : Fin D => (prior.scale * prior.mean i + n * sampleMean data i) / k
    ∃ p : NW D, (nwFam D).update ⟨⟨D, prior⟩, ⟨D, q⟩⟩ (normalAcc (nwFam D) data (n / data.length)) 1 =
        .ok ⟨⟨D, prior⟩, ⟨D, p⟩⟩ ∧ NWValid p ∧ p.mean = m ∧ p.dof = prior.dof + n ∧
      ∀ i j, p.W⁻¹ i j = prior.W⁻¹ i j + (n * (sampleCov data i j + sampleMean data i * sampleMean data j) +
        prior.scale * (prior.mean i * prior.mean j) - k * (m i * m j)) := by
  intro n k m
  have hn : 0 < n := effSize_pos data datasize h
  have hl : (data.length : ℝ) ≠ 0 := by
    have := List.length_pos_of_ne_nil h
    exact_mod_cast this.ne'
  have hl0 : (0 : ℝ) ≤ data.length := Nat.cast_nonneg _
  set rows : WData D := data.map fun x => (n / data.length, x) with hrows
  have hr : ∀ e ∈ rows, 0 ≤ e.1 := by
    intro r hr
    obtain ⟨x, hx, rfl⟩ := List.mem_map.1 hr
    positivity
  have hc : wcount rows = n := by
    rw [← rows_count data h n]
    simp only [hrows, wcount, List.map_map, Function.comp_def]
  have hf : ∀ i : Fin D, wfirst rows i = n * sampleMean data i := by
    intro i
    simp only [hrows, wfirst, List.map_map, Function.comp_def]
    rw [sum_const_mul, sum_first data h]
    field_simp
  have hs : ∀ i j : Fin D, wsecond rows i j = n * (sampleCov data i j + sampleMean data i * sampleMean data j) := by
    intro i j
    simp only [hrows, wsecond, List.map_map, Function.comp_def, Matrix.of_apply]
    rw [sum_const_mul, sum_second data h]
    field_simp
  obtain ⟨p, e, f1, f2, f3, f4⟩ := C76_normalwishart_textbook_update prior q hp hq rows hr
  have vp : NWValidD D ⟨D, prior⟩ := ⟨rfl, hp⟩
  have vq : NWValidD D ⟨D, q⟩ := ⟨rfl, hq⟩
  obtain ⟨p', g1, g2, -⟩ := nwConj.update ⟨D, prior⟩ ⟨D, q⟩ rows 1 vp vq (fun r hr' => ⟨hr r hr', trivial⟩) one_pos le_rfl
  have n0 := nwConj.nat_eq ⟨D, prior⟩ vp
  have n1 := nwConj.nat_eq ⟨D, q⟩ vq
  have hlen : (wsum (nwFam D).sdim (rows.map fun r => (r.1, (nwFam D).stats r.2))).length = (nwFam D).sdim := by
    apply length_wsum
    intro r hr
    obtain ⟨r', hr', rfl⟩ := List.mem_map.1 hr
    exact nwConj.len_stats _ trivial
  have hpp : p' = ⟨D, p⟩ := by
    have e0 : nwNatural prior = .ok (nwConj.N ⟨D, prior⟩) := n0
    have e1 : nwNatural q = .ok (nwConj.N ⟨D, q⟩) := n1
    unfold nwUpdate at e
    rw [e0, e1] at e
    exact Except.ok.inj (g1.symm.trans e)
  subst hpp
  refine ⟨p, ?_, g2.2, ?_, by rw [f4, hc], fun i j => ?_⟩
  · rw [normalAcc_eq]
    exact update_of _ _ _ _ _ _ _ n0 n1 (by rw [nwConj.len_N _ vp]; exact hlen.symm)
      (by rw [nwConj.len_N _ vp, nwConj.len_N _ vq]) g1
  · funext i
    rw [f2, f1, hc, hf]
  · rw [f3, f2, f2, f1, hc, hs, hf, hf]
    ring

theorem normalCov_diagonal (hD : 1 ≤ D) (p : CParam (NG ℝ)) (mean rates : Fin D → ℝ) (k a : ℝ)
    (e : p.post = ⟨List.ofFn mean, k, a, List.ofFn rates⟩) :
    normalCov (.diagonal p) = .ok ⟨D, Matrix.diagonal fun i => rates i / a⟩ := by
  obtain ⟨pr, po⟩ := p
  dsimp only at e
  subst e
  unfold normalCov
  dsimp only
  have e2 : (List.ofFn rates).map (fun r => a / r) = List.ofFn fun i => a / rates i := by
    rw [List.map_ofFn]; rfl
  rw [e2]
  have key : ∀ (l : List ℝ) (h : l.length = D) (f : Fin D → ℝ), (∀ i : Fin D, 1 / l.get (i.cast h.symm) = f i) →
      (Except.ok ⟨l.length, Matrix.diagonal fun i => 1 / l.get i⟩ :
        Except Err (Σ n : ℕ, Matrix (Fin n) (Fin n) ℝ)) = .ok ⟨D, Matrix.diagonal f⟩ := by
    rintro l rfl f hf
    congr 3
    funext i
    exact hf i
  split_ifs with h
  · exact key _ (by simp) _ fun i => by simp
  · have h1 : D = 1 := by simp at h; omega
    subst h1
    have h2 : (List.ofFn mean).length = 1 := by simp
    have key2 : ∀ (n : ℕ) (h : n = 1) (x : ℝ) (f : Fin 1 → ℝ), x = f 0 →
        (Except.ok ⟨n, x • 1⟩ : Except Err (Σ n : ℕ, Matrix (Fin n) (Fin n) ℝ)) =
          .ok ⟨1, Matrix.diagonal f⟩ := by
      rintro n rfl x f rfl
      congr 2
      ext i j
      fin_cases i; fin_cases j
      simp
    exact key2 _ h2 _ _ (by simp)

theorem normalCov_isotropic (p : CParam (ING ℝ)) (mean : Fin D → ℝ) (k a b : ℝ) (e : p.post = ⟨List.ofFn mean, k, a, b⟩) :
    normalCov (.isotropic p) = .ok ⟨D, (b / a) • 1⟩ := by
  obtain ⟨pr, po⟩ := p
  dsimp only at e
  subst e
  unfold normalCov
  dsimp only
  rw [one_div_div]
  have key : ∀ (n : ℕ), n = D → ∀ x : ℝ,
      (Except.ok ⟨n, x • 1⟩ : Except Err (Σ n : ℕ, Matrix (Fin n) (Fin n) ℝ)) = .ok ⟨D, x • 1⟩ := by
    rintro n rfl x; rfl
  exact key _ (by simp) _

theorem normalCov_full (hD : 1 ≤ D) (c : CParam (Σ D : ℕ, NW D)) (p : NW D) (e : c.post = ⟨D, p⟩) (hv : NWValid p) :
    normalCov (.full c) = .ok ⟨D, (1 / p.dof) • p.W⁻¹⟩ := by
  have hdof : 0 < p.dof := by
    have : (1 : ℝ) ≤ D := by exact_mod_cast hD
    have := hv.2.2
    linarith
  have hW : p.W.det ≠ 0 := hv.2.1.det_pos.ne'
  have hd : (p.dof • p.W).det ≠ 0 := (hv.2.1.smul hdof).det_pos.ne'
  obtain ⟨pr, po⟩ := c
  dsimp only at e
  subst e
  unfold normalCov
  show Except.bind (tinverse (p.dof • p.W)) _ = _
  rw [tinverse, if_neg hd]
  show Except.ok _ = Except.ok _
  congr 2
  have u : Invertible p.dof := invertibleOfNonzero hdof.ne'
  rw [Matrix.inv_smul _ _ (isUnit_iff_ne_zero.2 hW), invOf_eq_inv, one_div]

/-- The limit of a pooled mean. -/
theorem pooled_tendsto (s a b : ℝ) (hs : 0 < s) :
    Tendsto (fun n : ℕ => (s * a + (n : ℝ) * b) / (s + n)) atTop (𝓝 b) := by
  have h1 : Tendsto (fun n : ℕ => b + s * (a - b) / (s + n)) atTop (𝓝 (b + 0)) := by
    refine tendsto_const_nhds.add (Tendsto.div_atTop tendsto_const_nhds ?_)
    exact tendsto_atTop_add_const_left _ _ tendsto_natCast_atTop_atTop
  rw [add_zero] at h1
  refine h1.congr fun n => ?_
  have : (s + n : ℝ) ≠ 0 := by positivity
  field_simp
  ring

/-- The limit of a pooled covariance. -/
theorem pooled_cov_tendsto (s a b c e d : ℝ) (hs : 0 < s) (he : 0 < e) (hd : 0 < d) :
    Tendsto (fun n : ℕ => (a + (n : ℝ) * b + s * n / (s + n) * c) / (e + d * n)) atTop (𝓝 (b / d)) := by
  have hN : Tendsto (fun n : ℕ => (n : ℝ)) atTop atTop := tendsto_natCast_atTop_atTop
  have h1 : Tendsto (fun n : ℕ => (s * n / (s + n) : ℝ)) atTop (𝓝 s) := by
    have := pooled_tendsto s 0 s hs
    simpa [mul_comm] using this
  have h2 : Tendsto (fun n : ℕ => (a - e * b / d + s * n / (s + n) * c) / (e + d * (n : ℝ))) atTop (𝓝 0) := by
    refine Tendsto.div_atTop (tendsto_const_nhds.add (h1.mul_const c)) ?_
    exact tendsto_atTop_add_const_left _ _ (hN.const_mul_atTop hd)
  have h3 := (tendsto_const_nhds (x := b / d) (f := (atTop : Filter ℕ))).add h2
  rw [add_zero] at h3
  refine h3.congr fun n => ?_
  have p1 : (s + n : ℝ) ≠ 0 := by positivity
  have p2 : (e + d * n : ℝ) ≠ 0 := by positivity
  field_simp
  ring

end Verif.Props
