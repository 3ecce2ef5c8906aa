import Verif.Lemmas.WishartMarginal

/-!
# Moments of the Normal-Wishart law
-/

namespace Verif

open Real MeasureTheory ProbabilityTheory Set Verif.Dists Verif.VB
open scoped ENNReal Matrix

/-- Second moment of an entry of Bartlett's factor. -/
noncomputable def entrySecond {D : ℕ} (v : ℝ) (i j : Fin D) : ℝ :=
  if j < i then 0 else if j = i then v - i else 1

theorem fin_cast_le {D : ℕ} (i : Fin D) : (i : ℝ) ≤ D - 1 := by
  have : (i : ℕ) + 1 ≤ D := i.2
  have : ((i : ℕ) : ℝ) + 1 ≤ D := by exact_mod_cast this
  linarith

theorem entry_sq {D : ℕ} (v : ℝ) (hv : (D : ℝ) - 1 < v) (i j : Fin D) :
    Integrable (fun t => t ^ 2) (entryLaw v i j) ∧ ∫ t, t ^ 2 ∂entryLaw v i j = entrySecond v i j := by
  have hi := fin_cast_le i
  unfold entryLaw entrySecond
  split_ifs with h1 h2
  · exact ⟨integrable_dirac (by simp), by simp⟩
  · have ha : 0 < (v - i) / 2 := by linarith
    have hb : (0 : ℝ) < 1 / 2 := by norm_num
    have he : (fun l => √l ^ 2) =ᵐ[gammaMeasure ((v - i) / 2) (1 / 2)] fun l => l := by
      filter_upwards [gamma_ae_pos ((v - i) / 2) (1 / 2)] with l hl
      exact sq_sqrt hl.le
    constructor
    · rw [integrable_map_measure (by fun_prop) (by fun_prop)]
      exact (gamma_integrable_id ha hb).congr he.symm
    · rw [integral_map (by fun_prop) (by fun_prop), integral_congr_ae he, gamma_mean ha hb]
      ring
  · constructor
    · exact (memLp_id_gaussianReal 2).integrable_sq
    · rw [normal_second]; simp

theorem entry_memLp {D : ℕ} (v : ℝ) (hv : (D : ℝ) - 1 < v) (i j : Fin D) :
    MemLp (fun t => t) 2 (entryLaw v i j) :=
  (memLp_two_iff_integrable_sq (by fun_prop)).2 (entry_sq v hv i j).1

theorem entry_mean {D : ℕ} (v : ℝ) (i j : Fin D) (h : j ≠ i) : ∫ t, t ∂entryLaw v i j = 0 := by
  unfold entryLaw
  split_ifs with h1
  · simp
  · rw [integral_id_gaussianReal]

theorem entrySecond_sum {D : ℕ} (v : ℝ) (j : Fin D) : ∑ i, entrySecond v i j = v := by
  have : ∀ i, entrySecond v i j = (if i = j then v - j else 0) + if i < j then (1 : ℝ) else 0 := by
    intro i
    unfold entrySecond
    rcases lt_trichotomy j i with h | h | h
    · rw [if_pos h, if_neg h.ne', if_neg h.not_gt, add_zero]
    · subst h; simp
    · rw [if_neg h.not_gt, if_neg h.ne', if_neg h.ne, if_pos h, zero_add]
  rw [Finset.sum_congr rfl fun i _ => this i, Finset.sum_add_distrib, Finset.sum_ite_eq', if_pos (by simp),
    ← Finset.sum_filter, Finset.sum_const,
    show (Finset.univ.filter fun a => a < j) = Finset.Iio j by ext a; simp, Fin.card_Iio]
  simp

theorem row_memLp {D : ℕ} (v : ℝ) (hv : (D : ℝ) - 1 < v) (i j : Fin D) :
    MemLp (fun B : Fin D → Fin D → ℝ => B i j) 2 (bartlettLaw D v) := by
  have hp := entryLaw_prob v hv
  rw [bartlett_eq]
  have h1 : MemLp (fun b : Fin D → ℝ => b j) 2 (Measure.pi (entryLaw v i)) :=
    (entry_memLp v hv i j).comp_measurePreserving (measurePreserving_eval (entryLaw v i) j)
  exact h1.comp_measurePreserving (measurePreserving_eval (fun i : Fin D => Measure.pi (entryLaw v i)) i)

theorem row_product {D : ℕ} (v : ℝ) (hv : (D : ℝ) - 1 < v) (i j l : Fin D) :
    ∫ B, B i j * B i l ∂bartlettLaw D v = if j = l then entrySecond v i j else 0 := by
  have hp := entryLaw_prob v hv
  rw [bartlett_eq, integral_comp_eval (μ := fun i : Fin D => Measure.pi (entryLaw v i)) (i := i)
    (f := fun b : Fin D → ℝ => b j * b l) (by fun_prop)]
  split_ifs with h
  · subst h
    rw [integral_comp_eval (μ := entryLaw v i) (i := j) (f := fun t : ℝ => t * t) (by fun_prop),
      ← (entry_sq v hv i j).2]
    simp only [sq]
  · have hind : IndepFun (fun b : Fin D → ℝ => b j) (fun b : Fin D → ℝ => b l)
        (Measure.pi (entryLaw v i)) :=
      (iIndepFun_pi (X := fun _ t => t) fun i => (by fun_prop)).indepFun h
    rw [hind.integral_fun_mul_eq_mul_integral (measurable_pi_apply j).aestronglyMeasurable
      (measurable_pi_apply l).aestronglyMeasurable, integral_eval, integral_eval]
    by_cases hj : j = i
    · rw [entry_mean v i l (by rintro rfl; exact h hj), mul_zero]
    · rw [entry_mean v i j hj, zero_mul]

/-- The Gram matrix of Bartlett's factor. -/
theorem gram_moment {D : ℕ} (v : ℝ) (hv : (D : ℝ) - 1 < v) (j l : Fin D) :
    Integrable (fun B : Fin D → Fin D → ℝ => ∑ a, B a j * B a l) (bartlettLaw D v) ∧
    ∫ B, ∑ a, B a j * B a l ∂bartlettLaw D v = if j = l then v else 0 := by
  have hi : ∀ a, Integrable (fun B : Fin D → Fin D → ℝ => B a j * B a l) (bartlettLaw D v) := fun a =>
    (row_memLp v hv a j).integrable_mul (row_memLp v hv a l)
  refine ⟨integrable_finsetSum _ fun a _ => hi a, ?_⟩
  rw [integral_finsetSum _ fun a _ => hi a, Finset.sum_congr rfl fun a _ => row_product v hv a j l]
  split_ifs
  · exact entrySecond_sum v j
  · simp

/-- The law before the draw. -/
noncomputable def seedLaw (D : ℕ) (v : ℝ) : Measure ((Fin D → Fin D → ℝ) × (Fin D → ℝ)) :=
  (bartlettLaw D v).prod (Measure.pi fun _ : Fin D => gaussianReal 0 1)

theorem seedLaw_prob {D : ℕ} (v : ℝ) (hv : (D : ℝ) - 1 < v) : IsProbabilityMeasure (bartlettLaw D v) := by
  have := entryLaw_prob v hv
  rw [bartlett_eq]
  infer_instance

/-- The precision drawn. -/
theorem precision_moment {D : ℕ} (L : Matrix (Fin D) (Fin D) ℝ) (v : ℝ) (hv : (D : ℝ) - 1 < v)
    (i j : Fin D) :
    Integrable (fun p : (Fin D → Fin D → ℝ) × (Fin D → ℝ) =>
      ((Matrix.of p.1 * Lᵀ)ᵀ * (Matrix.of p.1 * Lᵀ)) i j) (seedLaw D v) ∧
    ∫ p, ((Matrix.of p.1 * Lᵀ)ᵀ * (Matrix.of p.1 * Lᵀ)) i j ∂seedLaw D v = v * (L * Lᵀ) i j := by
  have hB := seedLaw_prob v hv
  have e : ∀ B : Fin D → Fin D → ℝ, ((Matrix.of B * Lᵀ)ᵀ * (Matrix.of B * Lᵀ)) i j =
      ∑ l, ∑ l', (L i l * L j l') * ∑ a, B a l * B a l' := by
    intro B
    rw [Matrix.mul_apply]
    simp only [Matrix.transpose_apply (Matrix.of _ * Lᵀ), Matrix.mul_apply, Matrix.of_apply,
      Matrix.transpose_apply]
    have h1 : ∀ a, (∑ l, B a l * L i l) * (∑ l, B a l * L j l) =
        ∑ l, ∑ l', L i l * L j l' * (B a l * B a l') := by
      intro a
      rw [Finset.sum_mul_sum]
      exact Finset.sum_congr rfl fun l _ => Finset.sum_congr rfl fun l' _ => by ring
    rw [Finset.sum_congr rfl fun a _ => h1 a, Finset.sum_comm]
    refine Finset.sum_congr rfl fun l _ => ?_
    rw [Finset.sum_comm]
    exact Finset.sum_congr rfl fun l' _ => by rw [Finset.mul_sum]
  simp_rw [e]
  have hi : ∀ l l', Integrable (fun B : Fin D → Fin D → ℝ => (L i l * L j l') * ∑ a, B a l * B a l')
      (bartlettLaw D v) := fun l l' => (gram_moment v hv l l').1.const_mul _
  have hall : Integrable (fun B : Fin D → Fin D → ℝ => ∑ l, ∑ l', (L i l * L j l') * ∑ a, B a l * B a l')
      (bartlettLaw D v) := integrable_finsetSum _ fun l _ => integrable_finsetSum _ fun l' _ => hi l l'
  refine ⟨hall.comp_fst _, ?_⟩
  unfold seedLaw
  rw [integral_fun_fst (μ := bartlettLaw D v) (ν := Measure.pi fun _ : Fin D => gaussianReal 0 1)
    (fun B : Fin D → Fin D → ℝ => ∑ l, ∑ l', (L i l * L j l') * ∑ a, B a l * B a l')]
  rw [integral_finsetSum _ fun l _ => integrable_finsetSum _ fun l' _ => hi l l']
  simp_rw [fun l => integral_finsetSum (μ := bartlettLaw D v) _ fun l' (_ : l' ∈ Finset.univ) => hi l l',
    integral_const_mul, fun l l' => (gram_moment v hv l l').2]
  simp [Matrix.mul_apply, Finset.mul_sum, mul_comm]

/-- The cross terms vanish. -/
theorem cross_moment {D : ℕ} (L : Matrix (Fin D) (Fin D) ℝ) (v : ℝ) (hv : (D : ℝ) - 1 < v)
    (a i : Fin D) :
    Integrable (fun p : (Fin D → Fin D → ℝ) × (Fin D → ℝ) => (Matrix.of p.1 * Lᵀ) a i * p.2 a)
      (seedLaw D v) ∧
    ∫ p, (Matrix.of p.1 * Lᵀ) a i * p.2 a ∂seedLaw D v = 0 := by
  have hB := seedLaw_prob v hv
  have hU : Integrable (fun B : Fin D → Fin D → ℝ => (Matrix.of B * Lᵀ) a i) (bartlettLaw D v) := by
    simp only [Matrix.mul_apply, Matrix.of_apply]
    exact integrable_finsetSum _ fun l _ =>
      ((row_memLp v hv a l).integrable (by norm_num)).mul_const _
  have hz : Integrable (fun z : Fin D → ℝ => z a) (Measure.pi fun _ : Fin D => gaussianReal 0 1) :=
    integrable_comp_eval (μ := fun _ : Fin D => gaussianReal 0 1) (i := a) (f := fun t : ℝ => t)
      ((memLp_id_gaussianReal 1).integrable le_rfl)
  refine ⟨hU.mul_prod hz, ?_⟩
  unfold seedLaw
  rw [integral_prod_mul (μ := bartlettLaw D v) (ν := Measure.pi fun _ : Fin D => gaussianReal 0 1)
    (fun B : Fin D → Fin D → ℝ => (Matrix.of B * Lᵀ) a i) (fun z : Fin D → ℝ => z a), integral_eval,
    integral_id_gaussianReal, mul_zero]

theorem noise_moment {D : ℕ} (v : ℝ) (hv : (D : ℝ) - 1 < v) (a : Fin D) :
    Integrable (fun p : (Fin D → Fin D → ℝ) × (Fin D → ℝ) => p.2 a ^ 2) (seedLaw D v) ∧
    ∫ p, p.2 a ^ 2 ∂seedLaw D v = 1 := by
  have hB := seedLaw_prob v hv
  have hz : Integrable (fun z : Fin D → ℝ => z a ^ 2) (Measure.pi fun _ : Fin D => gaussianReal 0 1) :=
    integrable_comp_eval (μ := fun _ : Fin D => gaussianReal 0 1) (i := a) (f := fun t : ℝ => t ^ 2)
      ((memLp_id_gaussianReal 2).integrable_sq)
  refine ⟨hz.comp_snd _, ?_⟩
  unfold seedLaw
  rw [integral_fun_snd (μ := bartlettLaw D v) (ν := Measure.pi fun _ : Fin D => gaussianReal 0 1)
    (fun z : Fin D → ℝ => z a ^ 2), integral_comp_eval (μ := fun _ : Fin D => gaussianReal 0 1) (i := a)
    (f := fun t : ℝ => t ^ 2) (by fun_prop), normal_second]
  simp

theorem logdiag_moment {D : ℕ} (v : ℝ) (hv : (D : ℝ) - 1 < v) (i : Fin D) :
    Integrable (fun p : (Fin D → Fin D → ℝ) × (Fin D → ℝ) => log (p.1 i i ^ 2)) (seedLaw D v) ∧
    ∫ p, log (p.1 i i ^ 2) ∂seedLaw D v = digamma (v / 2 - i / 2) + log 2 := by
  have hB := seedLaw_prob v hv
  have hp := entryLaw_prob v hv
  have hi := fin_cast_le i
  have ha : 0 < (v - i) / 2 := by linarith
  have hb : (0 : ℝ) < 1 / 2 := by norm_num
  have hml : Measurable fun t : ℝ => log (t ^ 2) := by fun_prop
  have he : (fun l => log (√l ^ 2)) =ᵐ[gammaMeasure ((v - i) / 2) (1 / 2)] fun l => log l := by
    filter_upwards [gamma_ae_pos ((v - i) / 2) (1 / 2)] with l hl
    rw [sq_sqrt hl.le]
  have h1 : Integrable (fun t => log (t ^ 2)) (entryLaw v i i) := by
    unfold entryLaw
    rw [if_neg (lt_irrefl i), if_pos rfl, integrable_map_measure hml.aestronglyMeasurable (by fun_prop)]
    exact (gamma_log ha hb).1.congr he.symm
  have h2 : ∫ t, log (t ^ 2) ∂entryLaw v i i = digamma (v / 2 - i / 2) + log 2 := by
    unfold entryLaw
    rw [if_neg (lt_irrefl i), if_pos rfl, integral_map (by fun_prop) hml.aestronglyMeasurable,
      integral_congr_ae he, (gamma_log ha hb).2, one_div, log_inv]
    rw [show (v - i) / 2 = v / 2 - (i : ℝ) / 2 by ring]
    ring
  have h3 : Integrable (fun b : Fin D → ℝ => log (b i ^ 2)) (Measure.pi (entryLaw v i)) :=
    integrable_comp_eval (μ := entryLaw v i) (i := i) (f := fun t : ℝ => log (t ^ 2)) h1
  have h4 : Integrable (fun B : Fin D → Fin D → ℝ => log (B i i ^ 2)) (bartlettLaw D v) := by
    rw [bartlett_eq]
    exact integrable_comp_eval (μ := fun i : Fin D => Measure.pi (entryLaw v i)) (i := i)
      (f := fun b : Fin D → ℝ => log (b i ^ 2)) h3
  refine ⟨h4.comp_fst _, ?_⟩
  unfold seedLaw
  rw [integral_fun_fst (μ := bartlettLaw D v) (ν := Measure.pi fun _ : Fin D => gaussianReal 0 1)
    (fun B : Fin D → Fin D → ℝ => log (B i i ^ 2)), bartlett_eq,
    integral_comp_eval (μ := fun i : Fin D => Measure.pi (entryLaw v i)) (i := i)
      (f := fun b : Fin D → ℝ => log (b i ^ 2)) h3.1,
    integral_comp_eval (μ := entryLaw v i) (i := i) (f := fun t : ℝ => log (t ^ 2)) h1.1, h2]
  simp

end Verif
