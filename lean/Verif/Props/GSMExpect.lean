import Verif.Props.GSM
import Verif.Lemmas.GammaExpect

/-!
# C102 (continued): the objective of the subspace model is unbiased
-/

namespace Verif.Props

open Verif Verif.GSM Verif.GSMSpec Verif.Dists Verif.DistSpec Real Matrix MeasureTheory
  ProbabilityTheory

instance normalLaw_prob {D : ℕ} (m s : Fin D → ℝ) : IsProbabilityMeasure (normalLaw m s) := by
  unfold normalLaw; infer_instance

instance stdNoise_prob (D : ℕ) : IsProbabilityMeasure (stdNoise D) := by
  unfold stdNoise; infer_instance

theorem measurable_drawn {D : ℕ} (m s : Fin D → ℝ) : Measurable (drawn m s) := by
  unfold drawn
  fun_prop

/-- C97 and C102: shifted and scaled standard noise follows the normal law with the given means and
variances. -/
theorem C102_sample_law {D : ℕ} (m s : Fin D → ℝ) (hs : ∀ d, 0 ≤ s d) :
    (stdNoise D).map (drawn m s) = normalLaw m s := by
  have h1 : ∀ d, (gaussianReal 0 (1 : ℝ).toNNReal).map (fun e => m d + √(s d) * e) =
      gaussianReal (m d) (s d).toNNReal := by
    intro d
    have e : (fun e => m d + √(s d) * e) = (fun e => m d + e) ∘ (fun e => √(s d) * e) := rfl
    rw [e, ← Measure.map_map (by fun_prop) (by fun_prop), gaussianReal_map_const_mul,
      gaussianReal_map_const_add, mul_zero, zero_add]
    congr 1
    ext
    simp [Real.sq_sqrt (hs d), Real.coe_toNNReal _ (hs d)]
  have hp : ∀ d, SigmaFinite ((gaussianReal 0 (1 : ℝ).toNNReal).map fun e => m d + √(s d) * e) := by
    intro d; rw [h1 d]; infer_instance
  have := Measure.pi_map_pi (μ := fun _ : Fin D => gaussianReal 0 (1 : ℝ).toNNReal)
    (f := fun d e => m d + √(s d) * e) (fun d => by fun_prop)
  unfold stdNoise normalLaw drawn
  rw [this]
  congr 1
  funext d
  exact h1 d

theorem mldc_nonneg {D : ℕ} (p : MLDC D) (d : Fin D) : 0 ≤ p.diagCov d := by
  unfold MLDC.diagCov; positivity

theorem mldc_pos {D : ℕ} (p : MLDC D) (d : Fin D) : 0 < p.diagCov d := by
  unfold MLDC.diagCov; positivity

/-- The log density is integrable under the law itself. -/
theorem integrable_logDensity {D : ℕ} (m s : Fin D → ℝ) (hs : ∀ d, 0 < s d) :
    Integrable (logDensity m s) (normalLaw m s) := by
  have e : logDensity m s = fun x => ∑ i, (-(1/2) * log (2 * π) - (1/2) * log (s i) -
      (x i - m i) ^ 2 / (2 * s i)) := by
    funext x
    exact diagLogDensity_ofFn m s x hs
  rw [e]
  refine integrable_finsetSum _ fun i _ => ?_
  refine (integrable_const _).sub (Integrable.div_const ?_ _)
  have h2 : Integrable (fun y : ℝ => (y - m i) ^ 2) (gaussianReal (m i) (s i).toNNReal) := by
    have h := (memLp_id_gaussianReal (μ := m i) (v := (s i).toNNReal) 2).sub (memLp_const (m i))
    exact h.integrable_sq
  exact integrable_comp_eval (μ := fun i => gaussianReal (m i) (s i).toNNReal) (i := i)
    (f := fun y => (y - m i) ^ 2) h2

variable {I R Qp Q N L P : ℕ}

/-- C102, unbiasedness: when every latent draw, every draw of the weights and every draw of the bias are
standard normal noise and the three draws of each combination are independent, the expectation of the
value of model `n` is the expected log-likelihood under the variational posterior minus the divergence
between the latent posterior and the latent prior, for any number of samples.  The latent prior is one
whose expected log-likelihood is affine in the statistics; the pdf-vectors and the statistics of the
prior are integrable. -/
theorem C102_unbiased {Ω : Type*} [MeasurableSpace Ω] (μ : Measure Ω) [IsProbabilityMeasure μ]
    (hL : 0 < L) (hP : 0 < P) (g : GSM.Model I R Qp Q N) (a : Fin Qp → ℝ) (b : ℝ)
    (hprior : ∀ st n, g.priorLlh st n = ∑ q, a q * st n q + b) (posts : Fin N → MLDC I)
    (stats : Fin N → Fin Q → ℝ) (eps : Ω → Fin N → Fin L → Fin I → ℝ)
    (epsW : Ω → Fin P → Fin (I * R) → ℝ) (epsB : Ω → Fin P → Fin R → ℝ) (n : Fin N)
    (hlaw : ∀ l p, μ.map (fun ω => (eps ω n l, epsW ω p, epsB ω p)) =
      (stdNoise I).prod ((stdNoise (I * R)).prod (stdNoise R)))
    (hpdf : ∀ q, Integrable (fun x : (Fin I → ℝ) × (Fin (I * R) → ℝ) × (Fin R → ℝ) =>
      g.pdfvec (superVector (matrixOf x.2.1) x.2.2 x.1) q) (jointLaw g (posts n)))
    (hst : ∀ q, Integrable (fun h => g.priorStats h q)
      (normalLaw (posts n).mean (posts n).diagCov)) :
    ∫ ω, g.expLlh posts stats (eps ω) (epsW ω) (epsB ω) n ∂μ =
      (∑ q, (∫ x, g.pdfvec (superVector (matrixOf x.2.1) x.2.2 x.1) q ∂jointLaw g (posts n)) *
        stats n q) -
      ∫ h, (logDensity (posts n).mean (posts n).diagCov h - (∑ q, a q * g.priorStats h q + b))
        ∂normalLaw (posts n).mean (posts n).diagCov := by
  have hL' : (L : ℝ) ≠ 0 := by exact_mod_cast hL.ne'
  have hP' : (P : ℝ) ≠ 0 := by exact_mod_cast hP.ne'
  set T := g.transform with hT
  set m := (posts n).mean
  set s := (posts n).diagCov
  -- the drawn triples follow the joint law
  let d3 : (Fin I → ℝ) × (Fin (I * R) → ℝ) × (Fin R → ℝ) →
      (Fin I → ℝ) × (Fin (I * R) → ℝ) × (Fin R → ℝ) :=
    Prod.map (drawn m s) (Prod.map (drawn T.postW.mean T.postW.diagCov)
      (drawn T.postB.mean T.postB.diagCov))
  have hd3 : Measurable d3 := (measurable_drawn _ _).prodMap
    ((measurable_drawn _ _).prodMap (measurable_drawn _ _))
  have hae : ∀ l p, AEMeasurable (fun ω => (eps ω n l, epsW ω p, epsB ω p)) μ := by
    intro l p
    by_contra hn
    have h0 := Measure.map_of_not_aemeasurable hn
    rw [hlaw l p] at h0
    exact IsProbabilityMeasure.ne_zero _ h0
  let X : Fin L → Fin P → Ω → (Fin I → ℝ) × (Fin (I * R) → ℝ) × (Fin R → ℝ) := fun l p ω =>
    d3 (eps ω n l, epsW ω p, epsB ω p)
  have hX : ∀ l p, AEMeasurable (X l p) μ := fun l p => hd3.comp_aemeasurable (hae l p)
  have hXlaw : ∀ l p, μ.map (X l p) = jointLaw g (posts n) := by
    intro l p
    have e : μ.map (X l p) = (μ.map fun ω => (eps ω n l, epsW ω p, epsB ω p)).map d3 :=
      (AEMeasurable.map_map_of_aemeasurable hd3.aemeasurable (hae l p)).symm
    rw [e, hlaw l p]
    unfold jointLaw
    rw [← Measure.map_prod_map _ _ (measurable_drawn _ _)
      ((measurable_drawn _ _).prodMap (measurable_drawn _ _)),
      ← Measure.map_prod_map _ _ (measurable_drawn _ _) (measurable_drawn _ _),
      C102_sample_law _ _ (mldc_nonneg _), C102_sample_law _ _ (mldc_nonneg _),
      C102_sample_law _ _ (mldc_nonneg _)]
  have hH : ∀ l, AEMeasurable (fun ω => drawn m s (eps ω n l)) μ := fun l =>
    measurable_fst.comp_aemeasurable (hX l ⟨0, hP⟩)
  have hHlaw : ∀ l, μ.map (fun ω => drawn m s (eps ω n l)) = normalLaw m s := by
    intro l
    have e : (fun ω => drawn m s (eps ω n l)) = Prod.fst ∘ X l ⟨0, hP⟩ := rfl
    rw [e, ← AEMeasurable.map_map_of_aemeasurable measurable_fst.aemeasurable (hX l ⟨0, hP⟩),
      hXlaw]
    unfold jointLaw
    rw [← Measure.fst, Measure.fst_prod]
  -- expectations of the three parts
  have i1 : ∀ q l p, Integrable (fun ω => g.pdfvec (superVector (matrixOf (X l p ω).2.1) (X l p ω).2.2
      (X l p ω).1) q) μ ∧ ∫ ω, g.pdfvec (superVector (matrixOf (X l p ω).2.1) (X l p ω).2.2
      (X l p ω).1) q ∂μ = ∫ x, g.pdfvec (superVector (matrixOf x.2.1) x.2.2 x.1) q
        ∂jointLaw g (posts n) := by
    intro q l p
    have hq := hpdf q
    rw [← hXlaw l p] at hq ⊢
    exact ⟨(integrable_map_measure hq.aestronglyMeasurable (hX l p)).1 hq,
      (integral_map (hX l p) hq.aestronglyMeasurable).symm⟩
  have i2 : ∀ F : (Fin I → ℝ) → ℝ, Integrable F (normalLaw m s) → ∀ l,
      Integrable (fun ω => F (drawn m s (eps ω n l))) μ ∧
      ∫ ω, F (drawn m s (eps ω n l)) ∂μ = ∫ h, F h ∂normalLaw m s := by
    intro F hF l
    rw [← hHlaw l] at hF ⊢
    exact ⟨(integrable_map_measure hF.aestronglyMeasurable (hH l)).1 hF,
      (integral_map (hH l) hF.aestronglyMeasurable).symm⟩
  have hld : Integrable (logDensity m s) (normalLaw m s) :=
    integrable_logDensity _ _ (mldc_pos (posts n))
  have haf : Integrable (fun h => ∑ q, a q * g.priorStats h q + b) (normalLaw m s) :=
    (integrable_finsetSum _ fun q _ => (hst q).const_mul (a q)).add (integrable_const b)
  have hD := i2 _ (hld.sub haf)
  simp only [Pi.sub_apply] at hD
  -- the value
  have hval : ∀ ω, g.expLlh posts stats (eps ω) (epsW ω) (epsB ω) n =
      (∑ q, (1 / ((L : ℝ) * P)) * (∑ l, ∑ p, g.pdfvec (superVector (matrixOf (X l p ω).2.1)
        (X l p ω).2.2 (X l p ω).1) q) * stats n q) -
      (1 / (L : ℝ)) * ∑ l, (logDensity m s (drawn m s (eps ω n l)) -
        (∑ q, a q * g.priorStats (drawn m s (eps ω n l)) q + b)) := by
    intro ω
    rw [C102_objective hL, hprior, affine_average hL]
    congr 1
    · rw [dotProduct]
      refine Finset.sum_congr rfl fun q _ => ?_
      rw [C101_expected_pdfvecs]
      rfl
    · unfold DistSpec.average
      rw [Finset.sum_sub_distrib, mul_sub]
  simp only [hval]
  have j1 : ∀ q, Integrable (fun ω => ∑ l, ∑ p, g.pdfvec (superVector (matrixOf (X l p ω).2.1)
        (X l p ω).2.2 (X l p ω).1) q) μ := fun q =>
    integrable_finsetSum _ fun l _ => integrable_finsetSum _ fun p _ => (i1 q l p).1
  have j2 : Integrable (fun ω => ∑ l, (logDensity m s (drawn m s (eps ω n l)) -
        (∑ q, a q * g.priorStats (drawn m s (eps ω n l)) q + b))) μ :=
    integrable_finsetSum _ fun l _ => (hD l).1
  rw [integral_sub (integrable_finsetSum _ fun q _ => ((j1 q).const_mul _).mul_const _)
    (j2.const_mul _), integral_finsetSum _ (fun q _ => ((j1 q).const_mul _).mul_const _)]
  congr 1
  · refine Finset.sum_congr rfl fun q _ => ?_
    rw [integral_mul_const, integral_const_mul, integral_finsetSum _ (fun l _ =>
      integrable_finsetSum _ fun p _ => (i1 q l p).1)]
    have : ∀ l, ∫ ω, ∑ p, g.pdfvec (superVector (matrixOf (X l p ω).2.1)
        (X l p ω).2.2 (X l p ω).1) q ∂μ = (P : ℝ) * ∫ x, g.pdfvec (superVector (matrixOf x.2.1) x.2.2 x.1) q
        ∂jointLaw g (posts n) := by
      intro l
      rw [integral_finsetSum _ (fun p _ => (i1 q l p).1),
        Finset.sum_congr rfl fun p _ => (i1 q l p).2]
      simp
    simp only [this, Finset.sum_const, Finset.card_univ, Fintype.card_fin, nsmul_eq_mul]
    field_simp
  · rw [integral_const_mul, integral_finsetSum _ (fun l _ => (hD l).1),
      Finset.sum_congr rfl fun l _ => (hD l).2]
    simp only [Finset.sum_const, Finset.card_univ, Fintype.card_fin, nsmul_eq_mul]
    field_simp

/-- The hypotheses can be met: one sample of each kind, drawn independently; identity pdf-vectors; a
standard normal latent prior. -/
example : ∃ (g : GSM.Model 1 1 2 1 1) (posts : Fin 1 → MLDC 1), ∃ μ : Measure
      ((Fin 1 → ℝ) × (Fin (1 * 1) → ℝ) × (Fin 1 → ℝ)), IsProbabilityMeasure μ ∧
    (∀ st n, g.priorLlh st n = ∑ q, ![0, 1] q * st n q + 3) ∧
    μ.map (fun ω => (ω.1, ω.2.1, ω.2.2)) =
      (stdNoise 1).prod ((stdNoise (1 * 1)).prod (stdNoise 1)) ∧
    (∀ q, Integrable (fun x : (Fin 1 → ℝ) × (Fin (1 * 1) → ℝ) × (Fin 1 → ℝ) =>
      g.pdfvec (superVector (matrixOf x.2.1) x.2.2 x.1) q) (jointLaw g (posts 0))) ∧
    ∀ q, Integrable (fun h => g.priorStats h q) (normalLaw (posts 0).mean (posts 0).diagCov) := by
  have hev : ∀ (D : ℕ) (m s : Fin D → ℝ) (i : Fin D), Integrable (fun x => x i) (normalLaw m s) := by
    intro D m s i
    exact integrable_comp_eval (μ := fun i => gaussianReal (m i) (s i).toNNReal) (i := i)
      (f := fun y => y) ((memLp_id_gaussianReal 1).integrable le_rfl)
  refine ⟨⟨⟨⟨fun _ => 0, fun _ => 0⟩, ⟨fun _ => 2, fun _ => 0⟩, ⟨fun _ => 0, fun _ => 0⟩,
    ⟨fun _ => 1, fun _ => 0⟩⟩, fun h => ![h 0, -(1/2) * h 0 ^ 2], fun st n => ∑ q, ![0, 1] q * st n q + 3,
    fun x => x⟩, fun _ => ⟨fun _ => 3, fun _ => 0⟩,
    (stdNoise 1).prod ((stdNoise (1 * 1)).prod (stdNoise 1)), inferInstance, fun _ _ => rfl, ?_, ?_, ?_⟩
  · exact Measure.map_id
  · intro q
    unfold jointLaw
    have e : (fun x : (Fin 1 → ℝ) × (Fin (1 * 1) → ℝ) × (Fin 1 → ℝ) =>
        superVector (matrixOf x.2.1) x.2.2 x.1 q) =
        fun x => x.1 0 * x.2.1 0 + x.2.2 0 := by
      funext x
      have hq : q = 0 := Subsingleton.elim _ _
      subst hq
      simp [superVector, matrixOf, mulVec, dotProduct, mul_comm]
    simp only [e]
    have k1 : Integrable (fun x : (Fin (1 * 1) → ℝ) × (Fin 1 → ℝ) => x.1 0)
        ((normalLaw (fun _ => 2) (MLDC.diagCov ⟨fun _ => 2, fun _ => 0⟩)).prod
          (normalLaw (fun _ => 1) (MLDC.diagCov ⟨fun _ => 1, fun _ => 0⟩))) := (hev _ _ _ 0).comp_fst _
    have k2 : Integrable (fun x : (Fin (1 * 1) → ℝ) × (Fin 1 → ℝ) => x.2 0)
        ((normalLaw (fun _ => 2) (MLDC.diagCov ⟨fun _ => 2, fun _ => 0⟩)).prod
          (normalLaw (fun _ => 1) (MLDC.diagCov ⟨fun _ => 1, fun _ => 0⟩))) := (hev _ _ _ 0).comp_snd _
    exact ((hev _ _ _ 0).mul_prod k1).add (k2.comp_snd _)
  · intro q
    fin_cases q
    · exact hev _ _ _ 0
    · refine Integrable.const_mul ?_ _
      exact integrable_comp_eval (μ := fun i => gaussianReal _ _) (i := (0 : Fin 1))
        (f := fun y => y ^ 2) ((memLp_id_gaussianReal 2).integrable_sq)

end Verif.Props
