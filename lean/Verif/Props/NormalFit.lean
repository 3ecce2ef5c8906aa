import Verif.Lemmas.NormalFit

/-!
# C169 — a trained Normal model is the compromise of its prior and of the data
-/

namespace Verif.Props

open Matrix Verif.VB Verif.Dists Verif.DistSpec Verif.FitSpec Filter Topology

variable {D : ℕ}

/-- The mean and the covariance of a model. -/
def HasMoments (m : NormalParam) (mean : Fin D → ℝ) (C : Matrix (Fin D) (Fin D) ℝ) : Prop :=
  normalMean m = List.ofFn mean ∧ normalCov m = .ok ⟨D, C⟩

/-- Whatever the size of the data set, training succeeds, and the mean and the covariance tend to `mean` and `C` as it grows. -/
def FitsTo (step : ℤ → Except Err NormalParam) (mean : Fin D → ℝ) (C : Matrix (Fin D) (Fin D) ℝ) : Prop :=
  ∃ (means : ℕ → Fin D → ℝ) (Cs : ℕ → Matrix (Fin D) (Fin D) ℝ),
    (∀ n : ℕ, 1 ≤ n → ∃ m, step n = .ok m ∧ HasMoments m (means n) (Cs n)) ∧
    Tendsto means atTop (𝓝 mean) ∧ Tendsto Cs atTop (𝓝 C)

theorem create_diagonal (mean : Fin D → ℝ) (cov : CovArg D) (hc : cov.HasDim) (s : ℝ) :
    normalCreate mean cov s "diagonal" =
      .ok (.diagonal ⟨⟨List.ofFn mean, s, s, List.ofFn fun i => s * requested cov i i⟩,
        ⟨List.ofFn mean, s, s, List.ofFn fun i => s * requested cov i i⟩⟩) := by
  unfold normalCreate
  rw [if_neg (by simp [isSubstr_self]), if_neg (by decide), if_pos rfl]
  unfold normalDiag
  rw [fullCov_eq cov hc]
  rfl

theorem create_full (mean : Fin D → ℝ) (cov : CovArg D) (hc : cov.HasDim) (hp : (requested cov).PosDef) (s : ℝ) :
    normalCreate mean cov s "full" =
      .ok (.full ⟨⟨D, ⟨mean, s, (1 / (s + D - 1)) • (requested cov)⁻¹, s + D - 1⟩⟩,
        ⟨D, ⟨mean, s, (1 / (s + D - 1)) • (requested cov)⁻¹, s + D - 1⟩⟩⟩) := by
  unfold normalCreate
  rw [if_neg (by simp [isSubstr_self]), if_pos rfl]
  unfold normalFull covInverse tinverse
  rw [fullCov_eq cov hc]
  dsimp only
  rw [if_neg hp.det_pos.ne']
  rfl

theorem step_diagonal {p p' : CParam (NG ℝ)} {data : List (Fin D → ℝ)} (h : data ≠ []) (datasize : ℤ) (l : ℝ)
    (e : (ngFam D).update p (normalAcc (ngFam D) (data.map List.ofFn) (effSize data datasize / data.length)) l = .ok p') :
    normalStep (.diagonal p) data datasize l = .ok (.diagonal p') := by
  unfold normalStep
  rw [batchScale_eff data datasize h, ok_bind]
  dsimp only
  rw [e]
  rfl

theorem step_isotropic {p p' : CParam (ING ℝ)} {data : List (Fin D → ℝ)} (h : data ≠ []) (datasize : ℤ) (l : ℝ)
    (e : (ingFam D).update p (normalAcc (ingFam D) (data.map List.ofFn) (effSize data datasize / data.length)) l = .ok p') :
    normalStep (.isotropic p) data datasize l = .ok (.isotropic p') := by
  unfold normalStep
  rw [batchScale_eff data datasize h, ok_bind]
  dsimp only
  rw [e]
  rfl

theorem step_full {p p' : CParam (Σ D : ℕ, NW D)} {data : List (Fin D → ℝ)} (h : data ≠ []) (datasize : ℤ) (l : ℝ)
    (e : (nwFam D).update p (normalAcc (nwFam D) data (effSize data datasize / data.length)) l = .ok p') :
    normalStep (.full p) data datasize l = .ok (.full p') := by
  unfold normalStep
  rw [batchScale_eff data datasize h, ok_bind]
  dsimp only
  rw [e]
  rfl

/-- C169: `Normal.create(mean, cov, strength, 'diagonal')` and a step of learning rate one on data standing for `n`
observations, whatever the posterior before: the mean of the model is the mean of `strength` observations at `mean` and of the
data, its variances are the means of `2 strength` times the requested ones, those of the data, and of the scatter between the
data and `mean`. -/
theorem C169_diagonal (hD : 1 ≤ D) (mean : Fin D → ℝ) (cov : CovArg D) (hc : cov.HasDim)
    (hp : ∀ i, 0 < requested cov i i) (s : ℝ) (hs : 0 < s) (data : List (Fin D → ℝ)) (h : data ≠ []) (datasize : ℤ) :
    ∃ p, normalCreate mean cov s "diagonal" = .ok (.diagonal p) ∧ ∀ q, NGValid D q →
      ∃ m, normalStep (.diagonal ⟨p.prior, q⟩) data datasize 1 = .ok m ∧
        HasMoments m (pooledMean s (effSize data datasize) mean (sampleMean data))
          (Matrix.diagonal fun i => (2 * s * requested cov i i + effSize data datasize * sampleCov data i i +
            between s (effSize data datasize) mean (sampleMean data) i i) / (2 * s + effSize data datasize)) := by
  refine ⟨_, create_diagonal mean cov hc s, fun q hq => ?_⟩
  have hn := effSize_pos data datasize h
  have hv : NGValid D (⟨List.ofFn mean, s, s, List.ofFn fun i => s * requested cov i i⟩ : NG ℝ) := by
    refine ⟨by simp, by simp, hs, hs, ?_⟩
    intro x hx
    obtain ⟨i, rfl⟩ := (List.mem_ofFn' _ _).1 hx
    exact mul_pos hs (hp i)
  have e := ng_fit _ q data datasize h hv hq
  dsimp only at e
  have hm : ∀ (f : Fin D → ℝ) (i : Fin D), (List.ofFn f).getD i 0 = f i := fun f i => by
    simp [List.getD_eq_getElem?_getD]
  simp only [hm] at e
  refine ⟨_, step_diagonal h datasize 1 e, rfl, ?_⟩
  rw [normalCov_diagonal hD _ _ _ _ _ rfl]
  congr 3
  funext i
  have key := scatter_eq s (effSize data datasize) (mean i) (mean i) (sampleMean data i) (sampleMean data i)
    (sampleCov data i i) (by positivity)
  rw [div_eq_div_iff (by positivity) (by positivity)]
  simp only [between, Matrix.of_apply]
  rw [sq, sq, key]
  ring

/-- C169, isotropic covariance: `v` is the largest of the requested variances. -/
theorem C169_isotropic (hD : 1 ≤ D) (mean : Fin D → ℝ) (cov : CovArg D) (hc : cov.HasDim)
    (hp : ∀ i, 0 < requested cov i i) (s : ℝ) (hs : 0 < s) (data : List (Fin D → ℝ)) (h : data ≠ []) (datasize : ℤ) :
    ∃ p k, normalCreate mean cov s "isotropic" = .ok (.isotropic p) ∧ (∀ i, requested cov i i ≤ requested cov k k) ∧
      ∀ q, INGValid D q →
      ∃ m, normalStep (.isotropic ⟨p.prior, q⟩) data datasize 1 = .ok m ∧
        HasMoments m (pooledMean s (effSize data datasize) mean (sampleMean data))
          (((2 * s * requested cov k k + ∑ i, (effSize data datasize * sampleCov data i i +
            between s (effSize data datasize) mean (sampleMean data) i i)) / (2 * s + D * effSize data datasize)) • 1) := by
  obtain ⟨k, ek, hk⟩ := vecMax_spec hD fun i => requested cov i i
  have hn := effSize_pos data datasize h
  have hv : INGValid D (⟨List.ofFn mean, s, s, s * requested cov k k⟩ : ING ℝ) :=
    ⟨by simp, hs, hs, mul_pos hs (hp k)⟩
  refine ⟨⟨⟨List.ofFn mean, s, s, s * requested cov k k⟩, ⟨List.ofFn mean, s, s, s * requested cov k k⟩⟩, k, ?_, hk,
    fun q hq => ?_⟩
  · unfold normalCreate
    rw [if_neg (by simp [isSubstr_self]), if_neg (by decide), if_neg (by decide), if_pos rfl]
    unfold normalIso
    rw [fullCov_eq cov hc]
    dsimp only [covDiag]
    rw [ok_bind, ek]
    rfl
  have e := ing_fit _ q data datasize h hv hq
  dsimp only at e
  have hm : ∀ (f : Fin D → ℝ) (i : Fin D), (List.ofFn f).getD i 0 = f i := fun f i => by
    simp [List.getD_eq_getElem?_getD]
  simp only [hm] at e
  refine ⟨_, step_isotropic h datasize 1 e, rfl, ?_⟩
  rw [normalCov_isotropic _ _ _ _ _ rfl]
  congr 3
  have key : ∀ i, effSize data datasize * (sampleCov data i i + sampleMean data i * sampleMean data i) + s * mean i ^ 2 -
      (s + effSize data datasize) * ((s * mean i + effSize data datasize * sampleMean data i) /
        (s + effSize data datasize)) ^ 2 = effSize data datasize * sampleCov data i i +
          between s (effSize data datasize) mean (sampleMean data) i i := by
    intro i
    rw [sq, sq]
    exact scatter_eq s (effSize data datasize) (mean i) (mean i) (sampleMean data i) (sampleMean data i)
      (sampleCov data i i) (by positivity)
  rw [Finset.sum_congr rfl fun i _ => key i, div_eq_div_iff (by positivity) (by positivity)]
  ring

/-- C169, full covariance: the prior counts for `strength + D - 1` observations. -/
theorem C169_full (hD : 1 ≤ D) (mean : Fin D → ℝ) (cov : CovArg D) (hc : cov.HasDim)
    (hp : (requested cov).PosDef) (s : ℝ) (hs : 0 < s) (data : List (Fin D → ℝ)) (h : data ≠ []) (datasize : ℤ) :
    ∃ p, normalCreate mean cov s "full" = .ok (.full p) ∧ ∀ q : NW D, NWValid q →
      ∃ m, normalStep (.full ⟨p.prior, ⟨D, q⟩⟩) data datasize 1 = .ok m ∧
        HasMoments m (pooledMean s (effSize data datasize) mean (sampleMean data))
          ((1 / (s + D - 1 + effSize data datasize)) • ((s + D - 1) • requested cov +
            effSize data datasize • sampleCov data + between s (effSize data datasize) mean (sampleMean data))) := by
  refine ⟨_, create_full mean cov hc hp s, fun q hq => ?_⟩
  have hn := effSize_pos data datasize h
  have hdof : 0 < s + D - 1 := by
    have : (1 : ℝ) ≤ D := by exact_mod_cast hD
    linarith
  have hv : NWValid (⟨mean, s, (1 / (s + D - 1)) • (requested cov)⁻¹, s + D - 1⟩ : NW D) :=
    ⟨hs, hp.inv.smul (by positivity), by show (D : ℝ) - 1 < s + D - 1; linarith⟩
  obtain ⟨p', e, v, em, ed, eW⟩ := nw_fit _ q data datasize h hv hq
  dsimp only at em ed eW
  refine ⟨.full ⟨_, ⟨D, p'⟩⟩, step_full h datasize 1 e, ?_, ?_⟩
  · show List.ofFn p'.mean = _
    rw [em]
    rfl
  · rw [normalCov_full hD _ p' rfl v, ed]
    congr 3
    ext i j
    rw [eW i j]
    have u : Invertible (1 / (s + D - 1)) := invertibleOfNonzero (by positivity)
    have ei : ((1 / (s + D - 1)) • (requested cov)⁻¹)⁻¹ = (s + D - 1) • requested cov := by
      rw [Matrix.inv_smul _ _ (isUnit_iff_ne_zero.2 hp.inv.det_pos.ne'), invOf_eq_inv, one_div, inv_inv,
        Matrix.nonsing_inv_nonsing_inv _ (isUnit_iff_ne_zero.2 hp.det_pos.ne')]
    have key := scatter_eq s (effSize data datasize) (mean i) (mean j) (sampleMean data i) (sampleMean data j)
      (sampleCov data i j) (by positivity)
    rw [ei, key]
    simp only [Matrix.add_apply, Matrix.smul_apply, smul_eq_mul, between, Matrix.of_apply]
    ring

theorem effSize_nat (data : List (Fin D → ℝ)) (n : ℕ) (h : 1 ≤ n) : effSize data n = n := by
  unfold effSize
  rw [if_neg (by omega)]
  simp

theorem pooledMean_tendsto (s : ℝ) (hs : 0 < s) (m0 m : Fin D → ℝ) :
    Tendsto (fun n : ℕ => pooledMean s n m0 m) atTop (𝓝 m) := by
  rw [tendsto_pi_nhds]
  intro i
  exact pooled_tendsto s (m0 i) (m i) hs

/-- C169: the more data, the less the prior matters. When the data stand for more and more observations, the mean tends to the
mean of the data and the variances to those of the data (diagonal covariance), to their average (isotropic covariance), the
covariance to that of the data (full covariance), whatever the requested mean, covariance and strength. -/
theorem C169_limit (hD : 1 ≤ D) (mean : Fin D → ℝ) (cov : CovArg D) (hc : cov.HasDim)
    (hp : (requested cov).PosDef) (s : ℝ) (hs : 0 < s) (data : List (Fin D → ℝ)) (h : data ≠ []) :
    (∃ p, normalCreate mean cov s "diagonal" = .ok (.diagonal p) ∧ ∀ q, NGValid D q →
      FitsTo (fun n => normalStep (.diagonal ⟨p.prior, q⟩) data n 1) (sampleMean data)
        (Matrix.diagonal fun i => sampleCov data i i)) ∧
    (∃ p, normalCreate mean cov s "isotropic" = .ok (.isotropic p) ∧ ∀ q, INGValid D q →
      FitsTo (fun n => normalStep (.isotropic ⟨p.prior, q⟩) data n 1) (sampleMean data)
        (((∑ i, sampleCov data i i) / D) • 1)) ∧
    (∃ p, normalCreate mean cov s "full" = .ok (.full p) ∧ ∀ q : NW D, NWValid q →
      FitsTo (fun n => normalStep (.full ⟨p.prior, ⟨D, q⟩⟩) data n 1) (sampleMean data) (sampleCov data)) := by
  have hpd : ∀ i, 0 < requested cov i i := fun i => hp.diag_pos
  have hD0 : (0 : ℝ) < D := by exact_mod_cast hD
  refine ⟨?_, ?_, ?_⟩
  · obtain ⟨p, e, -⟩ := C169_diagonal hD mean cov hc hpd s hs data h 0
    refine ⟨p, e, fun q hq => ⟨fun n => pooledMean s n mean (sampleMean data), fun n =>
      Matrix.diagonal fun i => (2 * s * requested cov i i + n * sampleCov data i i +
            between s n mean (sampleMean data) i i) / (2 * s + n), fun n hn => ?_, pooledMean_tendsto s hs _ _, ?_⟩⟩
    · obtain ⟨p', e', g⟩ := C169_diagonal hD mean cov hc hpd s hs data h n
      obtain rfl : p = p' := by simpa using e.symm.trans e'
      simpa only [effSize_nat data n hn] using g q hq
    · refine tendsto_pi_nhds.2 fun i => tendsto_pi_nhds.2 fun j => ?_
      rcases eq_or_ne i j with rfl | hij
      · have := pooled_cov_tendsto s (2 * s * requested cov i i) (sampleCov data i i)
          ((sampleMean data i - mean i) * (sampleMean data i - mean i)) (2 * s) 1 hs (by positivity) one_pos
        simpa [between] using this
      · simp [Matrix.diagonal_apply_ne _ hij]
  · obtain ⟨p, k, e, hk, -⟩ := C169_isotropic hD mean cov hc hpd s hs data h 0
    refine ⟨p, e, fun q hq => ⟨fun n => pooledMean s n mean (sampleMean data), fun n =>
      (((2 * s * requested cov k k + ∑ i, (n * sampleCov data i i +
            between s n mean (sampleMean data) i i)) / (2 * s + D * n)) • 1), fun n hn => ?_,
      pooledMean_tendsto s hs _ _, ?_⟩⟩
    · obtain ⟨p', k', e', hk', g⟩ := C169_isotropic hD mean cov hc hpd s hs data h n
      obtain rfl : p = p' := by simpa using e.symm.trans e'
      have : requested cov k k = requested cov k' k' := le_antisymm (hk' k) (hk k')
      rw [this]
      simpa only [effSize_nat data n hn] using g q hq
    · refine Tendsto.smul_const ?_ _
      have := pooled_cov_tendsto s (2 * s * requested cov k k) (∑ i, sampleCov data i i)
          (∑ i, (sampleMean data i - mean i) * (sampleMean data i - mean i)) (2 * s) D hs (by positivity) hD0
      refine this.congr fun n => ?_
      simp only [between, Matrix.of_apply, Finset.sum_add_distrib, Finset.mul_sum]
      rw [add_assoc]
  · obtain ⟨p, e, -⟩ := C169_full hD mean cov hc hp s hs data h 0
    have hdof : 0 < s + D - 1 := by
      have : (1 : ℝ) ≤ D := by exact_mod_cast hD
      linarith
    refine ⟨p, e, fun q hq => ⟨fun n => pooledMean s n mean (sampleMean data), fun n =>
      ((1 / (s + D - 1 + n)) • ((s + D - 1) • requested cov +
            (n : ℝ) • sampleCov data + between s n mean (sampleMean data))), fun n hn => ?_,
      pooledMean_tendsto s hs _ _, ?_⟩⟩
    · obtain ⟨p', e', g⟩ := C169_full hD mean cov hc hp s hs data h n
      obtain rfl : p = p' := by simpa using e.symm.trans e'
      simpa only [effSize_nat data n hn] using g q hq
    · refine tendsto_pi_nhds.2 fun i => tendsto_pi_nhds.2 fun j => ?_
      have := pooled_cov_tendsto s ((s + D - 1) * requested cov i j) (sampleCov data i j)
        ((sampleMean data i - mean i) * (sampleMean data j - mean j)) (s + D - 1) 1 hs hdof one_pos
      rw [div_one] at this
      refine this.congr fun n => ?_
      simp only [Matrix.add_apply, Matrix.smul_apply, smul_eq_mul, between, Matrix.of_apply]
      ring

/-- C169: without data the step raises. -/
theorem C169_no_data (m : NormalParam) (datasize : ℤ) (l : ℝ) :
    normalStep m ([] : List (Fin D → ℝ)) datasize l = .error .zeroDivision := by
  unfold normalStep batchScale
  simp
  rfl

/-- The data 1 and 3 and a prior of mean 0, variance 1 and strength 1: the mean is 4/3 and the variance 5/3; with more and more
such data they tend to 2 and 1. -/
example : ∃ p, normalCreate (fun _ : Fin 1 => 0) (.one 1) 1 "diagonal" = .ok (.diagonal p) ∧
    (∃ m, normalStep (.diagonal p) [fun _ : Fin 1 => 1, fun _ => 3] (-1) 1 = .ok m ∧
      HasMoments m (fun _ : Fin 1 => 4 / 3) (Matrix.diagonal fun _ => 5 / 3)) ∧
    FitsTo (fun n => normalStep (.diagonal p) [fun _ : Fin 1 => 1, fun _ => 3] n 1) (fun _ : Fin 1 => 2)
      (Matrix.diagonal fun _ : Fin 1 => 1) := by
  have hpd : (requested (.one 1 : CovArg 1)).PosDef := by
    have : requested (.one 1 : CovArg 1) = 1 := by ext i j; simp [requested, Matrix.one_apply]
    rw [this]
    exact Matrix.PosDef.one
  have hr : ∀ i : Fin 1, requested (.one 1 : CovArg 1) i i = 1 := fun i => by simp [requested]
  obtain ⟨p, C, e, -, -, -, ep, ev⟩ := C91_diagonal (D := 1) le_rfl (fun _ => 0) (.one 1) trivial
    (fun i => by rw [hr]; norm_num) 1 one_pos
  have hm : sampleMean [fun _ : Fin 1 => (1 : ℝ), fun _ => 3] = fun _ => 2 := by
    funext i; simp [sampleMean]; norm_num
  have hC : ∀ i, sampleCov [fun _ : Fin 1 => (1 : ℝ), fun _ => 3] i i = 1 := by
    intro i; simp [sampleCov, hm]; norm_num
  obtain ⟨p1, e1, g1⟩ := C169_diagonal (D := 1) le_rfl (fun _ => 0) (.one 1) trivial
    (fun i => by rw [hr]; norm_num) 1 one_pos [fun _ => 1, fun _ => 3] (by simp) (-1)
  obtain ⟨⟨p2, e2, g2⟩, -⟩ := C169_limit (D := 1) le_rfl (fun _ => 0) (.one 1) trivial hpd 1 one_pos
    [fun _ => 1, fun _ => 3] (by simp)
  obtain rfl : p = p1 := by simpa using e.symm.trans e1
  obtain rfl : p = p2 := by simpa using e.symm.trans e2
  refine ⟨p, e, ?_, ?_⟩
  · obtain ⟨m, em, h1, h2⟩ := g1 p.post ev.2
    refine ⟨m, em, ?_, ?_⟩
    · rw [h1, hm]
      congr 1
      funext i
      simp [pooledMean, effSize]
      norm_num
    · rw [h2, hm]
      congr 3
      funext i
      rw [hr, hC]
      simp [between, effSize]
      norm_num
  · have := g2 p.post ev.2
    rw [hm] at this
    simpa only [hC] using this

end Verif.Props
