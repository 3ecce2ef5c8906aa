import Verif.Lemmas.WishartExpect
import Verif.Props.WishartKL

/-!
# C99: the expected statistics of the Normal-Wishart are expectations
-/

namespace Verif.Props

open Real MeasureTheory ProbabilityTheory Matrix Verif Verif.Dists Verif.DistSpec Verif.VB
open scoped ENNReal Matrix

variable {D : ℕ}

/-- The statistics of a draw, outside a null set. -/
theorem draw_stats (m : Fin D → ℝ) (k : ℝ) (hk : 0 < k) (L : Matrix (Fin D) (Fin D) ℝ) (v : ℝ)
    (hv : (D : ℝ) - 1 < v) (hL : L.det ≠ 0) :
    ∀ᵐ p ∂seedLaw D v,
      (∀ i, ∑ j, (normalWishartDraw m k L p).2 i j * (normalWishartDraw m k L p).1 j =
        ∑ j, ((Matrix.of p.1 * Lᵀ)ᵀ * (Matrix.of p.1 * Lᵀ)) i j * m j +
          ∑ a, (Matrix.of p.1 * Lᵀ) a i * p.2 a / √k) ∧
      (∑ i, ∑ j, (normalWishartDraw m k L p).1 i * (normalWishartDraw m k L p).2 i j *
          (normalWishartDraw m k L p).1 j =
        ∑ i, ∑ j, ((Matrix.of p.1 * Lᵀ)ᵀ * (Matrix.of p.1 * Lᵀ)) i j * (m i * m j) +
          (∑ a, ∑ i, (Matrix.of p.1 * Lᵀ) a i * p.2 a * (2 * m i / √k) + ∑ a, p.2 a ^ 2 * (1 / k))) ∧
      log (Matrix.of (normalWishartDraw m k L p).2).det = log (L.det ^ 2) + ∑ i, log (p.1 i i ^ 2) := by
  have hB := seedLaw_prob v hv
  have hfst : ∀ᵐ p ∂seedLaw D v, (Matrix.of p.1).det = ∏ i, p.1 i i ∧ ∀ i : Fin D, 0 < p.1 i i :=
    Measure.quasiMeasurePreserving_fst.ae (bartlett_ae v hv)
  filter_upwards [hfst] with p hp
  set U := Matrix.of p.1 * Lᵀ with hU
  have hdetU : U.det = (∏ i, p.1 i i) * L.det := by rw [hU, det_mul, det_transpose, hp.1]
  have hne : U.det ≠ 0 := by
    rw [hdetU]
    exact mul_ne_zero (Finset.prod_ne_zero_iff.2 fun i _ => (hp.2 i).ne') hL
  have hmu : (normalWishartDraw m k L p).1 = m + (√k)⁻¹ • (U⁻¹ *ᵥ p.2) := by
    funext i
    show m i + (U⁻¹ *ᵥ p.2) i / √k = _
    simp only [Pi.add_apply, Pi.smul_apply, smul_eq_mul]
    ring
  have hUmu : U *ᵥ (normalWishartDraw m k L p).1 = U *ᵥ m + (√k)⁻¹ • p.2 := by
    rw [hmu, mulVec_add, mulVec_smul, mulVec_mulVec, mul_nonsing_inv _ (isUnit_iff_ne_zero.2 hne),
      one_mulVec]
  refine ⟨fun i => ?_, ?_, ?_⟩
  · show ((Uᵀ * U) *ᵥ (normalWishartDraw m k L p).1) i = ((Uᵀ * U) *ᵥ m) i + _
    rw [← mulVec_mulVec, hUmu, mulVec_add, mulVec_mulVec, mulVec_smul]
    simp only [Pi.add_apply, Pi.smul_apply, smul_eq_mul]
    congr 1
    simp only [mulVec, dotProduct, transpose_apply, Finset.mul_sum]
    exact Finset.sum_congr rfl fun a _ => by ring
  · have h1 : ∀ w : Fin D → ℝ, ∑ i, ∑ j, w i * (Uᵀ * U) i j * w j = ∑ a, ((U *ᵥ w) a) ^ 2 := by
      intro w
      have h2 : ∑ i, ∑ j, w i * (Uᵀ * U) i j * w j = w ⬝ᵥ ((Uᵀ * U) *ᵥ w) := by
        simp only [dotProduct, mulVec, Finset.mul_sum, mul_assoc]
      rw [h2, ← mulVec_mulVec, dotProduct_mulVec, vecMul_transpose]
      simp [dotProduct, sq]
    have h3 := h1 m
    have h4 : ∑ i, ∑ j, (Uᵀ * U) i j * (m i * m j) = ∑ i, ∑ j, m i * (Uᵀ * U) i j * m j :=
      Finset.sum_congr rfl fun i _ => Finset.sum_congr rfl fun j _ => by ring
    show ∑ i, ∑ j, (normalWishartDraw m k L p).1 i * (Uᵀ * U) i j * (normalWishartDraw m k L p).1 j = _
    rw [h1, hUmu, h4, h3, ← Finset.sum_add_distrib, ← Finset.sum_add_distrib]
    refine Finset.sum_congr rfl fun a _ => ?_
    have h5 : ∑ i, U a i * p.2 a * (2 * m i / √k) = (U *ᵥ m) a * p.2 a * (2 / √k) := by
      simp only [mulVec, dotProduct, Finset.sum_mul]
      exact Finset.sum_congr rfl fun i _ => by ring
    rw [h5]
    simp only [Pi.add_apply, Pi.smul_apply, smul_eq_mul]
    have h6 : (√k)⁻¹ ^ 2 = 1 / k := by rw [inv_pow, sq_sqrt hk.le, one_div]
    rw [add_sq, mul_pow, h6]
    ring
  · have h1 : (Matrix.of (normalWishartDraw m k L p).2).det = L.det ^ 2 * ∏ i, p.1 i i ^ 2 := by
      show (Uᵀ * U).det = _
      rw [det_mul, det_transpose, hdetU, Finset.prod_pow]
      ring
    rw [h1, log_mul (pow_ne_zero 2 hL) (Finset.prod_ne_zero_iff.2 fun i _ => pow_ne_zero 2 (hp.2 i).ne'),
      log_prod fun i _ => pow_ne_zero 2 (hp.2 i).ne']

/-- C99, Normal-Wishart: the expected statistics are the expectations of `precision * mu`, of the
precision, of `muᵀ * precision * mu` and of the logarithm of the determinant of the precision, which
exist; `L` is any factor of the scale matrix. -/
theorem C99_normal_wishart (p : NW D) (hp : NWValid p) (L : Matrix (Fin D) (Fin D) ℝ)
    (hL : L * Lᵀ = p.W) :
    (IsProbabilityMeasure (normalWishartLaw p.mean p.scale L p.dof) ∧
      (∀ i, Integrable (fun θ : (Fin D → ℝ) × (Fin D → Fin D → ℝ) => ∑ j, θ.2 i j * θ.1 j)
        (normalWishartLaw p.mean p.scale L p.dof)) ∧
      (∀ i j, Integrable (fun θ : (Fin D → ℝ) × (Fin D → Fin D → ℝ) => θ.2 i j)
        (normalWishartLaw p.mean p.scale L p.dof)) ∧
      Integrable (fun θ : (Fin D → ℝ) × (Fin D → Fin D → ℝ) => ∑ i, ∑ j, θ.1 i * θ.2 i j * θ.1 j)
        (normalWishartLaw p.mean p.scale L p.dof) ∧
      Integrable (fun θ : (Fin D → ℝ) × (Fin D → Fin D → ℝ) => log (Matrix.of θ.2).det)
        (normalWishartLaw p.mean p.scale L p.dof)) ∧
    nwExpStats p = .ok (
      List.ofFn (fun i => ∫ θ, ∑ j, θ.2 i j * θ.1 j ∂normalWishartLaw p.mean p.scale L p.dof) ++
      flat (Matrix.of fun i j => ∫ θ, θ.2 i j ∂normalWishartLaw p.mean p.scale L p.dof) ++
      [∫ θ, ∑ i, ∑ j, θ.1 i * θ.2 i j * θ.1 j ∂normalWishartLaw p.mean p.scale L p.dof,
       ∫ θ, log (Matrix.of θ.2).det ∂normalWishartLaw p.mean p.scale L p.dof]) := by
  obtain ⟨hk, hW, hv⟩ := hp
  have hdW : L.det ^ 2 = p.W.det := by rw [← hL, det_mul, det_transpose, sq]
  have hdL : L.det ≠ 0 := by
    intro h
    rw [h] at hdW
    norm_num at hdW
    exact hW.det_pos.ne hdW
  have hB := seedLaw_prob p.dof hv
  have hprob : IsProbabilityMeasure (seedLaw D p.dof) := by unfold seedLaw; infer_instance
  have hst := draw_stats p.mean p.scale hk L p.dof hv hdL
  have hS : ∀ i j, Measurable fun θ : (Fin D → ℝ) × (Fin D → Fin D → ℝ) => θ.2 i j := fun i j =>
    measurable_pi_iff.1 (measurable_pi_iff.1 measurable_snd i) j
  have hmm : ∀ i, Measurable fun θ : (Fin D → ℝ) × (Fin D → Fin D → ℝ) => θ.1 i := fun i =>
    (measurable_pi_apply i).comp measurable_fst
  have hd := (measurable_draw p.mean p.scale L).aemeasurable (μ := seedLaw D p.dof)
  have key : ∀ (f : (Fin D → ℝ) × (Fin D → Fin D → ℝ) → ℝ)
      (g : (Fin D → Fin D → ℝ) × (Fin D → ℝ) → ℝ), Measurable f →
      (∀ᵐ q ∂seedLaw D p.dof, f (normalWishartDraw p.mean p.scale L q) = g q) →
      Integrable g (seedLaw D p.dof) →
      Integrable f (normalWishartLaw p.mean p.scale L p.dof) ∧
        ∫ θ, f θ ∂normalWishartLaw p.mean p.scale L p.dof = ∫ q, g q ∂seedLaw D p.dof := by
    intro f g hf he hg
    unfold normalWishartLaw
    constructor
    · refine (integrable_map_measure hf.aestronglyMeasurable hd).2 (hg.congr ?_)
      filter_upwards [he] with q hq
      exact hq.symm
    · exact (integral_map hd hf.aestronglyMeasurable).trans (integral_congr_ae he)
  have hP := fun i j => precision_moment L p.dof hv i j
  have hC := fun a i => cross_moment L p.dof hv a i
  have hN := fun a => noise_moment p.dof hv a
  have hG := fun i => logdiag_moment p.dof hv i
  -- precision times mean
  have k1 := fun i => key (fun θ => ∑ j, θ.2 i j * θ.1 j)
    (fun q => ∑ j, ((Matrix.of q.1 * Lᵀ)ᵀ * (Matrix.of q.1 * Lᵀ)) i j * p.mean j +
      ∑ a, (Matrix.of q.1 * Lᵀ) a i * q.2 a / √p.scale)
    (Finset.measurable_sum _ fun j _ => (hS i j).mul (hmm j))
    (by filter_upwards [hst] with q hq using hq.1 i)
    ((integrable_finsetSum _ fun j _ => (hP i j).1.mul_const _).add
      (integrable_finsetSum _ fun a _ => (hC a i).1.div_const _))
  have v1 : ∀ i, ∫ q, (∑ j, ((Matrix.of q.1 * Lᵀ)ᵀ * (Matrix.of q.1 * Lᵀ)) i j * p.mean j +
      ∑ a, (Matrix.of q.1 * Lᵀ) a i * q.2 a / √p.scale) ∂seedLaw D p.dof =
      (p.dof • p.W *ᵥ p.mean) i := by
    intro i
    rw [integral_add (integrable_finsetSum _ fun j _ => (hP i j).1.mul_const _)
      (integrable_finsetSum _ fun a _ => (hC a i).1.div_const _),
      integral_finsetSum _ fun j _ => (hP i j).1.mul_const _,
      integral_finsetSum _ fun a _ => (hC a i).1.div_const _]
    simp_rw [integral_mul_const, integral_div, fun j => (hP i j).2, fun a => (hC a i).2, hL]
    simp [mulVec, dotProduct, Finset.mul_sum, mul_assoc]
  -- precision
  have k2 := fun i j => key (fun θ => θ.2 i j)
    (fun q => ((Matrix.of q.1 * Lᵀ)ᵀ * (Matrix.of q.1 * Lᵀ)) i j) (hS i j)
    (Filter.Eventually.of_forall fun q => rfl) (hP i j).1
  -- quadratic term
  have i3a : Integrable (fun q : (Fin D → Fin D → ℝ) × (Fin D → ℝ) =>
      ∑ i, ∑ j, ((Matrix.of q.1 * Lᵀ)ᵀ * (Matrix.of q.1 * Lᵀ)) i j * (p.mean i * p.mean j))
      (seedLaw D p.dof) :=
    integrable_finsetSum _ fun i _ => integrable_finsetSum _ fun j _ => (hP i j).1.mul_const _
  have i3b : Integrable (fun q : (Fin D → Fin D → ℝ) × (Fin D → ℝ) =>
      ∑ a, ∑ i, (Matrix.of q.1 * Lᵀ) a i * q.2 a * (2 * p.mean i / √p.scale)) (seedLaw D p.dof) :=
    integrable_finsetSum _ fun a _ => integrable_finsetSum _ fun i _ => (hC a i).1.mul_const _
  have i3c : Integrable (fun q : (Fin D → Fin D → ℝ) × (Fin D → ℝ) =>
      ∑ a, q.2 a ^ 2 * (1 / p.scale)) (seedLaw D p.dof) :=
    integrable_finsetSum _ fun a _ => (hN a).1.mul_const _
  have k3 := key (fun θ => ∑ i, ∑ j, θ.1 i * θ.2 i j * θ.1 j)
    (fun q => ∑ i, ∑ j, ((Matrix.of q.1 * Lᵀ)ᵀ * (Matrix.of q.1 * Lᵀ)) i j * (p.mean i * p.mean j) +
      (∑ a, ∑ i, (Matrix.of q.1 * Lᵀ) a i * q.2 a * (2 * p.mean i / √p.scale) +
        ∑ a, q.2 a ^ 2 * (1 / p.scale)))
    (Finset.measurable_sum _ fun i _ => Finset.measurable_sum _ fun j _ =>
      ((hmm i).mul (hS i j)).mul (hmm j))
    (by filter_upwards [hst] with q hq using hq.2.1) (i3a.add (i3b.add i3c))
  have v3 : ∫ q, (∑ i, ∑ j, ((Matrix.of q.1 * Lᵀ)ᵀ * (Matrix.of q.1 * Lᵀ)) i j * (p.mean i * p.mean j) +
      (∑ a, ∑ i, (Matrix.of q.1 * Lᵀ) a i * q.2 a * (2 * p.mean i / √p.scale) +
        ∑ a, q.2 a ^ 2 * (1 / p.scale))) ∂seedLaw D p.dof =
      (D : ℝ) / p.scale + p.dof * (p.mean ⬝ᵥ p.W *ᵥ p.mean) := by
    have i3bc : Integrable (fun q : (Fin D → Fin D → ℝ) × (Fin D → ℝ) =>
      ∑ a, ∑ i, (Matrix.of q.1 * Lᵀ) a i * q.2 a * (2 * p.mean i / √p.scale) +
        ∑ a, q.2 a ^ 2 * (1 / p.scale)) (seedLaw D p.dof) := i3b.add i3c
    rw [integral_add i3a i3bc, integral_add i3b i3c,
      integral_finsetSum _ fun i _ => integrable_finsetSum _ fun j _ => (hP i j).1.mul_const _,
      integral_finsetSum _ fun a _ => integrable_finsetSum _ fun i _ => (hC a i).1.mul_const _,
      integral_finsetSum _ fun a _ => (hN a).1.mul_const _]
    simp_rw [fun i => integral_finsetSum (μ := seedLaw D p.dof) _ fun j (_ : j ∈ Finset.univ) =>
        (hP i j).1.mul_const (p.mean i * p.mean j),
      fun a => integral_finsetSum (μ := seedLaw D p.dof) _ fun i (_ : i ∈ Finset.univ) =>
        (hC a i).1.mul_const (2 * p.mean i / √p.scale),
      integral_mul_const, fun i j => (hP i j).2, fun a i => (hC a i).2, fun a => (hN a).2, hL]
    have e1 : ∑ i, ∑ j, p.dof * p.W i j * (p.mean i * p.mean j) =
        p.dof * (p.mean ⬝ᵥ p.W *ᵥ p.mean) := by
      simp only [dotProduct, mulVec, Finset.mul_sum]
      exact Finset.sum_congr rfl fun i _ => Finset.sum_congr rfl fun j _ => by ring
    rw [e1]
    simp
    ring
  -- log-determinant
  have i4 : Integrable (fun q : (Fin D → Fin D → ℝ) × (Fin D → ℝ) => ∑ i, log (q.1 i i ^ 2))
      (seedLaw D p.dof) := integrable_finsetSum _ fun i _ => (hG i).1
  have k4 := key (fun θ => log (Matrix.of θ.2).det)
    (fun q => log (L.det ^ 2) + ∑ i, log (q.1 i i ^ 2))
    (measurable_det (fun θ : (Fin D → ℝ) × (Fin D → Fin D → ℝ) => Matrix.of θ.2) hS).log
    (by filter_upwards [hst] with q hq using hq.2.2) ((integrable_const _).add i4)
  have v4 : ∫ q, (log (L.det ^ 2) + ∑ i, log (q.1 i i ^ 2)) ∂seedLaw D p.dof =
      (∑ i : Fin D, digamma (p.dof / 2 - (i : ℝ) / 2)) + (D : ℝ) * log 2 + log p.W.det := by
    rw [integral_add (integrable_const _) i4, integral_finsetSum _ fun i _ => (hG i).1]
    simp_rw [fun i => (hG i).2, hdW]
    rw [Finset.sum_add_distrib]
    simp
    ring
  refine ⟨⟨normalWishartLaw_prob _ _ _ _ hv, fun i => (k1 i).1, fun i j => (k2 i j).1, k3.1, k4.1⟩, ?_⟩
  rw [nwExpStats_eq p ⟨hk, hW, hv⟩]
  unfold nwT nwTBlocks
  rw [k3.2, v3, k4.2, v4]
  simp_rw [fun i => (k1 i).2, v1, fun i j => (k2 i j).2, fun i j => (hP i j).2, hL]
  rfl

/-- The assumptions hold, with a scale matrix that is not diagonal. -/
example : NWValid (⟨![0, 1], 1, !![1, 1; 1, 2], 3⟩ : NW 2) ∧
    (!![1, 0; 1, 1] : Matrix (Fin 2) (Fin 2) ℝ) * (!![1, 0; 1, 1] : Matrix (Fin 2) (Fin 2) ℝ)ᵀ =
      !![1, 1; 1, 2] := by
  have e : (!![1, 0; 1, 1] : Matrix (Fin 2) (Fin 2) ℝ) * (!![1, 0; 1, 1] : Matrix (Fin 2) (Fin 2) ℝ)ᵀ =
      !![1, 1; 1, 2] := by
    ext i j
    fin_cases i <;> fin_cases j <;> norm_num [Matrix.mul_apply, Fin.sum_univ_two]
  refine ⟨⟨by norm_num, ?_, by norm_num⟩, e⟩
  rw [← e, ← conjTranspose_eq_transpose_of_trivial]
  refine PosDef.mul_conjTranspose_self _ ?_
  refine vecMul_injective_of_isUnit ((isUnit_iff_isUnit_det _).2 ?_)
  rw [isUnit_iff_ne_zero, det_fin_two]
  norm_num

end Verif.Props
