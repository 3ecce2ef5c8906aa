import Verif.Spec.Expect
import Verif.Lemmas.DirichletMean
import Verif.Props.KL
import Verif.Props.NormalDist

/-!
# C99: expected sufficient statistics are expectations
-/

namespace Verif.Props

open Real MeasureTheory ProbabilityTheory Verif Verif.Dists Verif.DistSpec

variable {D : ℕ}

theorem gammaLaw_prob (a b : Fin D → ℝ) (ha : ∀ i, 0 < a i) (hb : ∀ i, 0 < b i) (i : Fin D) :
    IsProbabilityMeasure (gammaMeasure (a i) (b i)) :=
  isProbabilityMeasure_gammaMeasure (ha i) (hb i)

theorem gammaLaw_mean (a b : Fin D → ℝ) (ha : ∀ i, 0 < a i) (hb : ∀ i, 0 < b i) (i : Fin D) :
    ∫ x, x i ∂gammaLaw a b = a i / b i := by
  have := gammaLaw_prob a b ha hb
  unfold gammaLaw
  rw [integral_eval, gamma_mean (ha i) (hb i)]

theorem gammaLaw_log (a b : Fin D → ℝ) (ha : ∀ i, 0 < a i) (hb : ∀ i, 0 < b i) (i : Fin D) :
    Integrable (fun x => log (x i)) (gammaLaw a b) ∧
    ∫ x, log (x i) ∂gammaLaw a b = digamma (a i) - log (b i) := by
  have := gammaLaw_prob a b ha hb
  unfold gammaLaw
  refine ⟨integrable_comp_eval (gamma_log (ha i) (hb i)).1, ?_⟩
  rw [integral_comp_eval (μ := fun i => gammaMeasure (a i) (b i)) (i := i) (f := log)
    measurable_log.aestronglyMeasurable,
    (gamma_log (ha i) (hb i)).2]

/-- C99, Gamma: the expected statistics are the expectations of `x` and `ln x`. -/
theorem C99_gamma (a b : Fin D → ℝ) (ha : ∀ i, 0 < a i) (hb : ∀ i, 0 < b i) :
    gamExpStats ⟨List.ofFn a, List.ofFn b⟩ =
      List.ofFn (fun i => ∫ x, x i ∂gammaLaw a b) ++
      List.ofFn (fun i => ∫ x, log (x i) ∂gammaLaw a b) := by
  unfold gamExpStats
  rw [zipWith_ofFn, zipWith_ofFn]
  simp_rw [gammaLaw_mean a b ha hb, fun i => (gammaLaw_log a b ha hb i).2]

/-- C99, normal with diagonal covariance: the expected statistics are the expectations of `x` and
`-x² / 2`. -/
theorem C99_normal_diag (m s : Fin D → ℝ) (hs : ∀ i, 0 < s i) :
    ndExpStats ⟨List.ofFn m, List.ofFn s⟩ =
      List.ofFn (fun i => ∫ x, x i ∂normalLaw m s) ++
      List.ofFn (fun i => ∫ x, -(1/2) * x i ^ 2 ∂normalLaw m s) := by
  unfold ndExpStats normalLaw
  rw [zipWith_ofFn]
  have h1 : ∀ i, ∫ x, x i ∂(Measure.pi fun i => gaussianReal (m i) (s i).toNNReal) = m i := by
    intro i; rw [integral_eval, integral_id_gaussianReal]
  have h2 : ∀ i, ∫ x, -(1/2) * x i ^ 2 ∂(Measure.pi fun i => gaussianReal (m i) (s i).toNNReal) =
      -(1/2) * (s i + m i ^ 2) := by
    intro i
    rw [integral_const_mul, integral_comp_eval (μ := fun i => gaussianReal (m i) (s i).toNNReal)
      (i := i) (f := fun x : ℝ => x ^ 2) (measurable_id.pow_const 2).aestronglyMeasurable,
      normal_second, Real.coe_toNNReal _ (hs i).le]
  simp_rw [h1, h2]

/-- C99, normal with full covariance: the expected statistics are the expectations of `x` and
`-x xᵀ / 2` under the multivariate normal law. -/
theorem C99_normal_full (p : FN D) (hp : FNValid p) :
    fnExpStats p =
      List.ofFn (fun i => ∫ x, x i ∂multivariateGaussian (WithLp.toLp 2 p.mean) p.cov) ++
      flat (Matrix.of fun i j =>
        ∫ x, -(1/2) * (x i * x j) ∂multivariateGaussian (WithLp.toLp 2 p.mean) p.cov) := by
  set μ := multivariateGaussian (WithLp.toLp 2 p.mean) p.cov with hμ
  have hL2 : ∀ i, MemLp (fun x : EuclideanSpace ℝ (Fin D) => x i) 2 μ := by
    intro i
    have h : MemLp id 2 μ := IsGaussian.memLp_two_id
    exact (EuclideanSpace.proj (𝕜 := ℝ) i : EuclideanSpace ℝ (Fin D) →L[ℝ] ℝ).comp_memLp' h
  have h1 : ∀ i, ∫ x, x i ∂μ = p.mean i := by
    intro i
    have h := (EuclideanSpace.proj (𝕜 := ℝ) i : EuclideanSpace ℝ (Fin D) →L[ℝ] ℝ).integral_comp_comm
      (μ := μ) (φ := fun x => x) IsGaussian.integrable_fun_id
    rw [integral_id_multivariateGaussian] at h
    simpa using h
  have h2 : ∀ i j, ∫ x, x i * x j ∂μ = p.cov i j + p.mean i * p.mean j := by
    intro i j
    have h := covariance_eval_multivariateGaussian (μ := WithLp.toLp 2 p.mean) (S := p.cov)
      hp.posSemidef i j
    rw [covariance_eq_sub (hL2 i) (hL2 j), h1, h1] at h
    simp only [Pi.mul_apply] at h
    linarith
  unfold fnExpStats
  simp_rw [h1, integral_const_mul, h2]
  rfl

theorem ngExpect_inner {m k l : ℝ} (hk : 0 < k) (hl : 0 < l) :
    (∫ mu, l * mu ∂gaussianReal m (1 / (k * l)).toNNReal = m * l) ∧
    (∫ mu, l * mu ^ 2 ∂gaussianReal m (1 / (k * l)).toNNReal = m ^ 2 * l + 1 / k) := by
  constructor
  · rw [integral_const_mul, integral_id_gaussianReal, mul_comm]
  · rw [integral_const_mul, normal_second, Real.coe_toNNReal _ (by positivity)]
    field_simp
    ring

theorem ngExpect_values {m k a b : ℝ} (hk : 0 < k) (ha : 0 < a) (hb : 0 < b) :
    ngExpect m k a b (fun mu l => l * mu) = a / b * m ∧
    ngExpect m k a b (fun _ l => l) = a / b ∧
    ngExpect m k a b (fun mu l => l * mu ^ 2) = a / b * m ^ 2 + 1 / k ∧
    ngExpect m k a b (fun _ l => log l) = digamma a - log b := by
  have := isProbabilityMeasure_gammaMeasure ha hb
  unfold ngExpect
  refine ⟨?_, ?_, ?_, ?_⟩
  · have h : (fun l => ∫ mu, l * mu ∂gaussianReal m (1 / (k * l)).toNNReal) =ᵐ[gammaMeasure a b]
        fun l => m * l := by
      filter_upwards [gamma_ae_pos a b] with l hl using (ngExpect_inner hk hl).1
    rw [integral_congr_ae h, integral_const_mul, gamma_mean ha hb, mul_comm]
  · simp [gamma_mean ha hb]
  · have h : (fun l => ∫ mu, l * mu ^ 2 ∂gaussianReal m (1 / (k * l)).toNNReal)
        =ᵐ[gammaMeasure a b] fun l => m ^ 2 * l + 1 / k := by
      filter_upwards [gamma_ae_pos a b] with l hl using (ngExpect_inner hk hl).2
    rw [integral_congr_ae h, integral_add ((gamma_integrable_id ha hb).const_mul _)
      (integrable_const _), integral_const_mul, gamma_mean ha hb]
    simp [mul_comm]
  · simp [(gamma_log ha hb).2]

/-- C99, Normal-Gamma: the expected statistics are the expectations of `precision * mu`, `precision`
(one per coordinate), and the sums over the coordinates of the expectations of `precision * mu²` and
of the log-precision. -/
theorem C99_normal_gamma (m b : Fin D → ℝ) (k a : ℝ) (hk : 0 < k) (ha : 0 < a) (hb : ∀ i, 0 < b i) :
    ngExpStats ⟨List.ofFn m, k, a, List.ofFn b⟩ =
      List.ofFn (fun i => ngExpect (m i) k a (b i) fun mu l => l * mu) ++
      List.ofFn (fun i => ngExpect (m i) k a (b i) fun _ l => l) ++
      [∑ i, ngExpect (m i) k a (b i) (fun mu l => l * mu ^ 2),
       ∑ i, ngExpect (m i) k a (b i) fun _ l => log l] := by
  have h := fun i => ngExpect_values (m := m i) hk ha (hb i)
  unfold ngExpStats
  dsimp only
  simp_rw [fun i => (h i).1, fun i => (h i).2.1, fun i => (h i).2.2.1, fun i => (h i).2.2.2]
  rw [zipWith_ofFn, zipWith_ofFn, List.map_ofFn, List.map_ofFn, List.sum_ofFn, List.sum_ofFn,
    Finset.sum_add_distrib, Finset.sum_const, Finset.card_univ, Fintype.card_fin, nsmul_eq_mul,
    List.length_ofFn, mul_one_div]
  rfl

/-- C99, isotropic Normal-Gamma: one precision shared by the coordinates. -/
theorem C99_iso_normal_gamma (m : Fin D → ℝ) (k a b : ℝ) (hk : 0 < k) (ha : 0 < a) (hb : 0 < b) :
    ingExpStats ⟨List.ofFn m, k, a, b⟩ =
      List.ofFn (fun i => ngExpect (m i) k a b fun mu l => l * mu) ++
      [∫ l, l ∂gammaMeasure a b, ∑ i, ngExpect (m i) k a b (fun mu l => l * mu ^ 2),
       ∫ l, log l ∂gammaMeasure a b] := by
  have h := fun i => ngExpect_values (m := m i) hk ha hb
  unfold ingExpStats
  dsimp only
  simp_rw [fun i => (h i).1, fun i => (h i).2.2.1]
  rw [gamma_mean ha hb, (gamma_log ha hb).2, List.map_ofFn, List.map_ofFn, List.sum_ofFn,
    Finset.sum_add_distrib, Finset.sum_const, Finset.card_univ, Fintype.card_fin, nsmul_eq_mul,
    List.length_ofFn, mul_one_div, Finset.mul_sum]
  rfl

theorem gammaLaw_ae_pos (c : Fin D → ℝ) (hc : ∀ i, 0 < c i) :
    ∀ᵐ g ∂gammaLaw c fun _ => 1, ∀ i, 0 < g i := by
  have := gammaLaw_prob c (fun _ => 1) hc fun _ => one_pos
  rw [ae_all_iff]
  intro i
  unfold gammaLaw
  exact (measurePreserving_eval (fun i => gammaMeasure (c i) 1) i).quasiMeasurePreserving.ae
    (gamma_ae_pos (c i) 1)

theorem normalise_measurable : Measurable fun (g : Fin D → ℝ) i => g i / ∑ j, g j :=
  measurable_pi_iff.2 fun i => (measurable_pi_apply i).div
    (Finset.measurable_sum _ fun j _ => measurable_pi_apply j)

/-- C99, sanity of the specification: the Dirichlet law is a probability on positive weights summing
to one. -/
theorem C99_dirichlet_simplex (hD : 0 < D) (c : Fin D → ℝ) (hc : ∀ i, 0 < c i) :
    IsProbabilityMeasure (dirichletLaw c) ∧
    ∀ᵐ p ∂dirichletLaw c, (∀ i, 0 < p i) ∧ ∑ i, p i = 1 := by
  have := gammaLaw_prob c (fun _ => 1) hc fun _ => one_pos
  have hp : IsProbabilityMeasure (gammaLaw c fun _ => 1) := by unfold gammaLaw; infer_instance
  have hne : Nonempty (Fin D) := ⟨⟨0, hD⟩⟩
  refine ⟨Measure.isProbabilityMeasure_map normalise_measurable.aemeasurable, ?_⟩
  unfold dirichletLaw
  rw [ae_map_iff normalise_measurable.aemeasurable]
  · filter_upwards [gammaLaw_ae_pos c hc] with g hg
    have hs : 0 < ∑ j, g j := Finset.sum_pos (fun j _ => hg j) Finset.univ_nonempty
    exact ⟨fun i => div_pos (hg i) hs, by rw [← Finset.sum_div, div_self hs.ne']⟩
  · have hm : Measurable fun p : Fin D → ℝ => ∑ i, p i :=
      Finset.measurable_sum _ fun j _ => measurable_pi_apply j
    exact measurableSet_setOfPred.2 (Measurable.and
      (Measurable.forall fun i => measurableSet_setOfPred.1
        (measurableSet_lt measurable_const (measurable_pi_apply i)))
      (measurableSet_setOfPred.1 (measurableSet_eq_fun hm measurable_const)))

theorem dirichlet_log (hD : 0 < D) (c : Fin D → ℝ) (hc : ∀ i, 0 < c i) (k : Fin D) :
    Integrable (fun p => log (p k)) (dirichletLaw c) ∧
    ∫ p, log (p k) ∂dirichletLaw c = digamma (c k) - digamma (∑ j, c j) := by
  have hne : Nonempty (Fin D) := ⟨⟨0, hD⟩⟩
  have hs : 0 < ∑ i, c i := Finset.sum_pos (fun i _ => hc i) Finset.univ_nonempty
  have hsum : Measurable fun g : Fin D → ℝ => ∑ i, g i :=
    Finset.measurable_sum _ fun i _ => measurable_pi_apply i
  have hmap : (gammaLaw c fun _ => 1).map (fun g => ∑ i, g i) = gammaMeasure (∑ i, c i) 1 :=
    gamma_sum hD c hc one_pos
  have hlog : Measurable fun p : Fin D → ℝ => log (p k) := (measurable_pi_apply k).log
  obtain ⟨i1, e1⟩ := gammaLaw_log c (fun _ => 1) hc (fun _ => one_pos) k
  obtain ⟨i2, e2⟩ := gamma_log hs one_pos
  rw [← hmap, integrable_map_measure measurable_log.aestronglyMeasurable hsum.aemeasurable] at i2
  rw [← hmap, integral_map hsum.aemeasurable measurable_log.aestronglyMeasurable] at e2
  have hae : (fun g : Fin D → ℝ => log (g k / ∑ j, g j)) =ᵐ[gammaLaw c fun _ => 1]
      fun g => log (g k) - log (∑ j, g j) := by
    filter_upwards [gammaLaw_ae_pos c hc] with g hg
    exact log_div (hg k).ne' (Finset.sum_pos (fun j _ => hg j) Finset.univ_nonempty).ne'
  unfold dirichletLaw
  constructor
  · rw [integrable_map_measure hlog.aestronglyMeasurable normalise_measurable.aemeasurable]
    exact (i1.sub i2).congr hae.symm
  · rw [integral_map normalise_measurable.aemeasurable hlog.aestronglyMeasurable,
      integral_congr_ae hae]
    refine (integral_sub i1 i2).trans ?_
    rw [e1]
    refine (congrArg (digamma (c k) - log 1 - ·) e2).trans ?_
    simp

/-- C99, Dirichlet: the expected statistics are the expectations of the log-ratios to the last weight
and of the logarithm of the last weight. -/
theorem C99_dirichlet (c : Fin (D + 1) → ℝ) (hc : ∀ i, 0 < c i) :
    dirExpStats (List.ofFn c) =
      List.ofFn (fun i : Fin D =>
        ∫ p, (log (p i.castSucc) - log (p (Fin.last D))) ∂dirichletLaw c) ++
      [∫ p, log (p (Fin.last D)) ∂dirichletLaw c] := by
  have h := dirichlet_log (Nat.succ_pos D) c hc
  have hd : (List.ofFn c).dropLast = List.ofFn fun i : Fin D => c i.castSucc := by
    rw [List.ofFn_succ', List.concat_eq_append, List.dropLast_concat]
  have hl : (List.ofFn c).getLastD 0 = c (Fin.last D) := by
    rw [List.ofFn_succ', List.concat_eq_append, List.getLastD_concat]
  unfold dirExpStats
  rw [hd, hl, List.map_ofFn, List.sum_ofFn]
  simp_rw [fun i => integral_sub (h i).1 (h (Fin.last D)).1, fun i => (h i).2]
  congr 2
  funext i
  simp

/-- C99: the expected log-weights used by mixtures and categorical models are the expectations of the
log-weights. -/
theorem C99_log_weights (c : Fin (D + 1) → ℝ) (hc : ∀ i, 0 < c i) (k : Fin (D + 1)) :
    catExpLlh (List.ofFn c) (oneHot (D + 1) k) = ∫ p, log (p k) ∂dirichletLaw c := by
  unfold oneHot
  rw [catExpLlh_eq, (dirichlet_log (Nat.succ_pos D) c hc k).2]
  simp

/-- C99: `Dirichlet.expected_value` is the vector of the means of the weights. -/
theorem C99_dirichlet_mean (c : Fin D → ℝ) (hc : ∀ i, 0 < c i) :
    dirMean (List.ofFn c) = List.ofFn fun i => ∫ p, p i ∂dirichletLaw c := by
  have h : ∀ i, ∫ p, p i ∂dirichletLaw c = c i / ∑ j, c j := by
    intro i
    have hne : Nonempty (Fin D) := ⟨i⟩
    have hs : 0 < ∑ i, c i := Finset.sum_pos (fun i _ => hc i) Finset.univ_nonempty
    unfold dirichletLaw
    rw [integral_map normalise_measurable.aemeasurable
      (measurable_pi_apply i).aestronglyMeasurable, integral_eq_lintegral_of_nonneg_ae]
    · exact (congrArg ENNReal.toReal (gamma_ratio_mean c hc i)).trans
        (ENNReal.toReal_ofReal (div_nonneg (hc i).le hs.le))
    · filter_upwards [gammaLaw_ae_pos c hc] with g hg
      exact div_nonneg (hg i).le (Finset.sum_nonneg fun j _ => (hg j).le)
    · exact ((measurable_pi_apply i).comp normalise_measurable).aestronglyMeasurable
  unfold dirMean
  simp_rw [h]
  rw [List.map_ofFn, List.sum_ofFn]
  rfl

example : gamExpStats ⟨[3], [2]⟩ =
    [∫ x, x 0 ∂gammaLaw ![3] ![2], ∫ x, log (x 0) ∂gammaLaw ![3] ![2]] ∧
    ∫ x, x 0 ∂gammaLaw ![3] ![2] = 3 / 2 := by
  have hp : ∀ i : Fin 1, (0 : ℝ) < ![3] i := by intro i; fin_cases i; simp
  have hq : ∀ i : Fin 1, (0 : ℝ) < ![2] i := by intro i; fin_cases i; simp
  exact ⟨by simpa using C99_gamma ![3] ![2] hp hq, by simpa using gammaLaw_mean ![3] ![2] hp hq 0⟩

example : ∫ p, log (p 0) ∂dirichletLaw (![1, 1] : Fin 2 → ℝ) = -1 := by
  have hp : ∀ i : Fin 2, (0 : ℝ) < ![1, 1] i := by intro i; fin_cases i <;> simp
  refine (dirichlet_log two_pos _ hp 0).2.trans ?_
  have := digamma_add_one (x := 1) one_pos
  norm_num [Fin.sum_univ_two] at *
  rw [this]; ring

example : ngExpStats ⟨[1, 2], 3, 4, [5, 6]⟩ ≠ [] ∧
    ngExpect 1 3 4 5 (fun mu l => l * mu ^ 2) = 4 / 5 + 1 / 3 := by
  refine ⟨by simp [ngExpStats], ?_⟩
  rw [(ngExpect_values (m := 1) (k := 3) (a := 4) (b := 5) (by norm_num) (by norm_num)
    (by norm_num)).2.2.1]
  norm_num

example : dirMean [1, 3] = [∫ p, p 0 ∂dirichletLaw (![1, 3] : Fin 2 → ℝ),
    ∫ p, p 1 ∂dirichletLaw (![1, 3] : Fin 2 → ℝ)] ∧ dirMean [1, 3] = [(1 : ℝ) / 4, 3 / 4] := by
  have hp : ∀ i : Fin 2, (0 : ℝ) < ![1, 3] i := by intro i; fin_cases i <;> simp
  exact ⟨by simpa using C99_dirichlet_mean _ hp, by norm_num [dirMean]⟩

example : ndExpStats ⟨[3], [2]⟩ = [3, -(11 / 2)] ∧
    ∫ x, -(1/2) * x 0 ^ 2 ∂normalLaw (![3] : Fin 1 → ℝ) ![2] = -(11 / 2) := by
  have hq : ∀ i : Fin 1, (0 : ℝ) < ![2] i := by intro i; fin_cases i; simp
  have h := C99_normal_diag ![3] ![2] hq
  have h1 : ndExpStats ⟨[3], [2]⟩ = [3, -(11 / 2)] := by norm_num [ndExpStats]
  refine ⟨h1, ?_⟩
  have e : ndExpStats ⟨List.ofFn ![3], List.ofFn ![2]⟩ = [3, -(11 / 2)] := by simpa using h1
  rw [e] at h
  simp at h ⊢
  exact h.2.symm

example : FNValid (⟨![1, 2], !![2, 1; 1, 2]⟩ : FN 2) := by
  refine Matrix.PosDef.of_dotProduct_mulVec_pos ?_ ?_
  · ext i j; fin_cases i <;> fin_cases j <;> simp [Matrix.conjTranspose]
  · intro x hx
    have h : star x ⬝ᵥ (!![2, 1; 1, 2] : Matrix (Fin 2) (Fin 2) ℝ).mulVec x =
        x 0 ^ 2 + x 1 ^ 2 + (x 0 + x 1) ^ 2 := by
      simp [dotProduct, Matrix.mulVec, Fin.sum_univ_two]; ring
    show 0 < star x ⬝ᵥ (!![2, 1; 1, 2] : Matrix (Fin 2) (Fin 2) ℝ).mulVec x
    rw [h]
    by_contra hn
    have h0 : x 0 = 0 := by nlinarith [sq_nonneg (x 0), sq_nonneg (x 1), sq_nonneg (x 0 + x 1)]
    have h1 : x 1 = 0 := by nlinarith [sq_nonneg (x 0), sq_nonneg (x 1), sq_nonneg (x 0 + x 1)]
    exact hx (by funext i; fin_cases i <;> simpa)

end Verif.Props
