import Mathlib.Algebra.Order.Star.Real
import Mathlib.Analysis.Matrix.LDL
import Mathlib.Analysis.Matrix.PosDef
import Mathlib.LinearAlgebra.Matrix.Block
import Verif.Model.WishartExp
import Verif.Lemmas.KL
import Verif.Lemmas.NormalWishart

/-!
# Cholesky factors, the trace inequality and the closed form of the Normal-Wishart KL divergence
-/

namespace Verif.Dists

open Real Matrix Verif.DistSpec

variable {D : ℕ}

/-! ## Cholesky factors -/

theorem exists_cholesky (S : Matrix (Fin D) (Fin D) ℝ) (hS : S.PosDef) :
    ∃ L, IsCholesky S L := by
  have hlow : BlockTriangular (LDL.lowerInv hS) OrderDual.toDual := by
    intro i j h
    exact LDL.lowerInv_triangular hS (by simpa using h)
  have hL : BlockTriangular (LDL.lower hS) OrderDual.toDual := by
    have := blockTriangular_inv_of_blockTriangular hlow
    exact this
  have hzero : ∀ i j, i < j → LDL.lower hS i j = 0 := fun i j h => hL (by simpa using h)
  have hdet : (LDL.lower hS).det ≠ 0 := by
    unfold LDL.lower
    rw [det_nonsing_inv]
    have := (isUnit_det_of_invertible (LDL.lowerInv hS)).ne_zero
    simpa using this
  have hdiag : ∀ i, LDL.lower hS i i ≠ 0 := by
    rw [det_of_isLowerTriangular _ hL] at hdet
    intro i
    exact (Finset.prod_ne_zero_iff.1 hdet) i (Finset.mem_univ i)
  have hpd : (LDL.diag hS).PosDef := by
    rw [LDL.diag_eq_lowerInv_conj]
    have hu : IsUnit (LDL.lowerInv hS) := isUnit_of_invertible _
    exact (hu.posDef_star_right_conjugate_iff).2 hS
  have hd : ∀ i, 0 < LDL.diagEntries hS i := by
    unfold LDL.diag at hpd
    exact posDef_diagonal_iff.1 hpd
  have hmain := LDL.lower_conj_diag hS
  set A := LDL.lower hS with hA
  set e := LDL.diagEntries hS with he
  let s : Fin D → ℝ := fun i => √(e i) * (if 0 < A i i then 1 else -1)
  have hss : ∀ i, s i * s i = e i := by
    intro i
    have := Real.mul_self_sqrt (hd i).le
    dsimp only [s]
    split_ifs <;> linarith
  refine ⟨A * diagonal s, ?_, ?_, ?_⟩
  · intro i j h
    rw [mul_diagonal, hzero i j h, zero_mul]
  · intro i
    rw [mul_diagonal]
    have h1 := Real.sqrt_pos.2 (hd i)
    dsimp only [s]
    split_ifs with h
    · positivity
    · have : A i i < 0 := lt_of_le_of_ne (not_lt.1 h) (hdiag i)
      nlinarith
  · intro i j _
    have : A * diagonal s * (A * diagonal s)ᵀ = S := by
      rw [transpose_mul, diagonal_transpose, Matrix.mul_assoc, ← Matrix.mul_assoc (diagonal s),
        diagonal_mul_diagonal]
      simp only [hss]
      rw [← Matrix.mul_assoc]
      rw [conjTranspose_eq_transpose_of_trivial] at hmain
      exact hmain
    rw [this]

theorem cholesky_mul (S L : Matrix (Fin D) (Fin D) ℝ) (hS : S.IsSymm) (h : IsCholesky S L) :
    L * Lᵀ = S := by
  ext i j
  rcases le_total j i with hij | hij
  · exact h.2.2 i j hij
  · have h1 := h.2.2 j i hij
    have h2 : (L * Lᵀ) i j = (L * Lᵀ) j i := by
      have : (L * Lᵀ)ᵀ = L * Lᵀ := by simp
      conv_lhs => rw [← this]
      rfl
    rw [h2, h1]
    exact congrFun (congrFun hS.eq i) j

theorem cholesky_det (S L : Matrix (Fin D) (Fin D) ℝ) (hS : S.IsSymm) (h : IsCholesky S L) :
    log S.det = 2 * ∑ i, log (L i i) := by
  rw [← cholesky_mul S L hS h, det_mul, det_transpose,
    det_of_isLowerTriangular L (by intro i j hij; exact h.1 i j (by simpa using hij)),
    Real.log_mul, Real.log_prod]
  · ring
  · intro i _; exact (h.2.1 i).ne'
  all_goals exact Finset.prod_ne_zero_iff.2 fun i _ => (h.2.1 i).ne'

theorem posDef_isSymm {S : Matrix (Fin D) (Fin D) ℝ} (hS : S.PosDef) : S.IsSymm := by
  have := hS.1
  rwa [IsHermitian, conjTranspose_eq_transpose_of_trivial] at this

theorem nwLogdet_eq (S : Matrix (Fin D) (Fin D) ℝ) (hS : S.PosDef) :
    nwLogdet S = .ok (log S.det) := by
  have hex := exists_cholesky S hS
  unfold nwLogdet tcholesky
  rw [dif_pos hex]
  dsimp only
  rw [cholesky_det S _ (posDef_isSymm hS) hex.choose_spec]

/-! ## The trace inequality -/

theorem scalar_ineq {x x' t : ℝ} (hx : 0 < x) (hx' : 0 < x') (ht : 0 < t) :
    x' - x' * log (x' / x) ≤ x * t - x' * log t := by
  have h := itakura_nonneg (show 0 < x * t / x' by positivity)
  rw [Real.log_div (by positivity) hx'.ne', Real.log_mul hx.ne' ht.ne'] at h
  rw [Real.log_div hx'.ne' hx.ne']
  have h2 : 0 ≤ x' * (x * t / x' - 1 - (log x + log t - log x')) := by positivity
  have h3 : x' * (x * t / x' - 1 - (log x + log t - log x')) =
    x * t - x' - x' * (log x + log t - log x') := by field_simp
  linarith

theorem trace_logdet (M : Matrix (Fin D) (Fin D) ℝ) (hM : M.PosDef) {x x' : ℝ} (hx : 0 < x)
    (hx' : 0 < x') :
    (D : ℝ) * (x' - x' * log (x' / x)) ≤ x * M.trace - x' * log M.det := by
  rw [hM.1.trace_eq_sum_eigenvalues, hM.1.det_eq_prod_eigenvalues]
  simp only [RCLike.ofReal_real_eq_id, id]
  rw [Real.log_prod (fun i _ => (hM.eigenvalues_pos i).ne'), Finset.mul_sum, Finset.mul_sum,
    ← Finset.sum_sub_distrib]
  have : (D : ℝ) * (x' - x' * log (x' / x)) = ∑ _i : Fin D, (x' - x' * log (x' / x)) := by
    rw [Finset.sum_const, Finset.card_univ, Fintype.card_fin, nsmul_eq_mul]
  rw [this]
  exact Finset.sum_le_sum fun i _ => scalar_ineq hx hx' (hM.eigenvalues_pos i)

theorem trace_logdet_eq (M : Matrix (Fin D) (Fin D) ℝ) (hM : M.PosDef)
    (h : M.trace - log M.det = D) : M = 1 := by
  rw [hM.1.trace_eq_sum_eigenvalues, hM.1.det_eq_prod_eigenvalues] at h
  simp only [RCLike.ofReal_real_eq_id, id] at h
  rw [Real.log_prod (fun i _ => (hM.eigenvalues_pos i).ne'), ← Finset.sum_sub_distrib] at h
  have h0 : ∑ i, (hM.1.eigenvalues i - 1 - log (hM.1.eigenvalues i)) = 0 := by
    have : ∑ i, (hM.1.eigenvalues i - 1 - log (hM.1.eigenvalues i)) =
        ∑ i, (hM.1.eigenvalues i - log (hM.1.eigenvalues i)) - D := by
      rw [Finset.sum_congr rfl fun i _ => sub_right_comm (hM.1.eigenvalues i) 1 _,
        Finset.sum_sub_distrib (g := fun _ => (1 : ℝ))]
      simp
    rw [this, h, sub_self]
  have h1 := (Finset.sum_eq_zero_iff_of_nonneg fun i _ =>
    itakura_nonneg (hM.eigenvalues_pos i)).1 h0
  have h2 : hM.1.eigenvalues = fun _ => 1 := by
    funext i
    exact (itakura_eq_zero (hM.eigenvalues_pos i)).1 (h1 i (Finset.mem_univ i))
  have h3 := hM.1.spectral_theorem
  rw [h2] at h3
  have : diagonal ((RCLike.ofReal : ℝ → ℝ) ∘ fun _ : Fin D => (1:ℝ)) = 1 := by
    ext i j; simp [diagonal, Matrix.one_apply]
  rw [this, map_one] at h3
  exact h3

/-! ## The log-Gamma part -/

theorem log_sum_ineq {x x' c : ℝ} (hc : 0 ≤ c) (hx : c < x) (hx' : c < x') :
    x' * log (x' / x) ≤ (x' - c) * log ((x' - c) / (x - c)) := by
  have p1 : 0 < x := by linarith
  have p2 : 0 < x' := by linarith
  have p3 : 0 < x - c := by linarith
  have p4 : 0 < x' - c := by linarith
  have h1 := Real.log_le_sub_one_of_pos (show 0 < (x - c) * x' / ((x' - c) * x) by positivity)
  have h2 := Real.log_le_sub_one_of_pos (show 0 < x' / x by positivity)
  rw [Real.log_div (by positivity) (by positivity), Real.log_mul p3.ne' p2.ne',
    Real.log_mul p4.ne' p1.ne'] at h1
  rw [Real.log_div p2.ne' p1.ne'] at h2 ⊢
  rw [Real.log_div p4.ne' p3.ne']
  have h3 := mul_le_mul_of_nonneg_left h1 p4.le
  have h4 := mul_le_mul_of_nonneg_left h2 hc
  have e : (x' - c) * ((x - c) * x' / ((x' - c) * x) - 1) + c * (x' / x - 1) = 0 := by
    field_simp; ring
  linarith

/-- One term of the log-Gamma part. -/
theorem lgamma_term {x x' c : ℝ} (hc : 0 ≤ c) (hx : c < x) (hx' : c < x') :
    x' * log (x' / x) - (x' - x) ≤
      lgamma (x' - c) - lgamma (x - c) - digamma (x - c) * (x' - x) := by
  have h := log_sum_ineq hc hx hx'
  have p3 : 0 < x - c := by linarith
  have p4 : 0 < x' - c := by linarith
  by_cases hne : x = x'
  · subst hne; simp [div_self (show x ≠ 0 by linarith)]
  · have := gamma_bregman_pos p3 p4 (by intro h; exact hne (by linarith))
    rw [Real.log_div p4.ne' p3.ne'] at h
    have e : x' - c - (x - c) = x' - x := by ring
    rw [e] at this
    linarith

theorem lgamma_term_strict {x x' c : ℝ} (hc : 0 ≤ c) (hx : c < x) (hx' : c < x') (hne : x ≠ x') :
    x' * log (x' / x) - (x' - x) <
      lgamma (x' - c) - lgamma (x - c) - digamma (x - c) * (x' - x) := by
  have h := log_sum_ineq hc hx hx'
  have p3 : 0 < x - c := by linarith
  have p4 : 0 < x' - c := by linarith
  have := gamma_bregman_pos p3 p4 (by intro h; exact hne (by linarith))
  rw [Real.log_div p4.ne' p3.ne'] at h
  have e : x' - c - (x - c) = x' - x := by ring
  rw [e] at this
  linarith

/-! ## Closed form -/

/-- The expected statistics as blocks. -/
noncomputable def nwTBlocks (a : Fin D → ℝ) (B : Matrix (Fin D) (Fin D) ℝ) (c d : ℝ) : List ℝ :=
  List.ofFn a ++ flat B ++ [c, d]

theorem length_nwTBlocks (a : Fin D → ℝ) (B : Matrix (Fin D) (Fin D) ℝ) (c d : ℝ) :
    (nwTBlocks a B c d).length = D + D * D + 2 := by
  simp [nwTBlocks, length_flat]; omega

theorem vdot_flat' (M N : Matrix (Fin D) (Fin D) ℝ) :
    vdot (flat M) (flat N) = ∑ i, ∑ j, M i j * N i j := by
  unfold flat
  rw [vdot_ofFn, ← Fintype.sum_prod_type' (fun i j => M i j * N i j)]
  exact Fintype.sum_equiv finProdFinEquiv.symm _ _ (fun k => rfl)

theorem vdot_nwEnc (a a' : Fin D → ℝ) (B B' : Matrix (Fin D) (Fin D) ℝ) (c d k e : ℝ) :
    vdot (nwTBlocks a B c d) (nwEnc a' B' k e) =
      a ⬝ᵥ a' - (1/2) * (∑ i, ∑ j, B i j * B' i j) - (1/2) * (k * c) + (1/2) * (e * d) := by
  unfold nwTBlocks nwEnc
  rw [vdot_append _ _ _ _ (by simp [length_flat]), vdot_append _ _ _ _ (by simp), vdot_ofFn,
    vdot_flat']
  have h1 : ∑ i, ∑ j, B i j * (-(1/2 : ℝ) • B') i j = -(1/2) * ∑ i, ∑ j, B i j * B' i j := by
    simp only [Finset.mul_sum]
    refine Finset.sum_congr rfl fun i _ => Finset.sum_congr rfl fun j _ => ?_
    rw [Matrix.smul_apply, smul_eq_mul]; ring
  rw [h1]
  have h2 : vdot [c, d] [-(1/2) * k, (1/2) * e] = -(1/2) * (k * c) + (1/2) * (e * d) := by
    simp only [vdot, List.zipWith_cons_cons, List.zipWith_nil_right, List.sum_cons, List.sum_nil]
    ring
  rw [h2]
  simp only [dotProduct]
  ring

theorem frob_eq_trace (W N : Matrix (Fin D) (Fin D) ℝ) (hW : W.IsSymm) :
    ∑ i, ∑ j, W i j * N i j = (W * N).trace := by
  simp only [trace, diag, mul_apply]
  rw [Finset.sum_comm]
  refine Finset.sum_congr rfl fun i _ => Finset.sum_congr rfl fun j _ => ?_
  have := congrFun (congrFun hW.eq i) j
  rw [transpose_apply] at this
  rw [this]

theorem frob_outer (W : Matrix (Fin D) (Fin D) ℝ) (m : Fin D → ℝ) :
    ∑ i, ∑ j, W i j * outer m i j = m ⬝ᵥ W *ᵥ m := by
  simp only [dotProduct, mulVec, Finset.mul_sum, outer, of_apply]
  refine Finset.sum_congr rfl fun i _ => Finset.sum_congr rfl fun j _ => ?_
  ring

theorem quad_symm (W : Matrix (Fin D) (Fin D) ℝ) (hW : W.IsSymm) (m m' : Fin D → ℝ) :
    m ⬝ᵥ W *ᵥ m' = m' ⬝ᵥ W *ᵥ m := by
  rw [dotProduct_mulVec, ← mulVec_transpose, hW.eq, dotProduct_comm]

/-- The value of the expected statistics on valid parameters. -/
noncomputable def nwT (p : NW D) : List ℝ :=
  nwTBlocks (p.dof • p.W *ᵥ p.mean) (p.dof • p.W)
    ((D : ℝ) / p.scale + p.dof * (p.mean ⬝ᵥ p.W *ᵥ p.mean))
    ((∑ i : Fin D, digamma (p.dof / 2 - (i : ℝ) / 2)) + (D : ℝ) * log 2 + log p.W.det)

/-- The value of the log-normaliser on valid parameters. -/
noncomputable def nwA (p : NW D) : ℝ :=
  (1/2) * p.dof * log p.W.det + (1/2) * p.dof * (D : ℝ) * log 2
      + (1/4) * (D : ℝ) * ((D : ℝ) - 1) * log π
      + (∑ i : Fin D, lgamma (p.dof / 2 - (i : ℝ) / 2))
      - (1/2) * (D : ℝ) * log p.scale + (1/2) * (D : ℝ) * log (2 * π)

/-- The natural parameters of valid parameters. -/
noncomputable def nwN (p : NW D) : List ℝ :=
  nwEnc (p.scale • p.mean) (p.W⁻¹ + p.scale • outer p.mean) p.scale (p.dof - D)

theorem half_idx (v : ℝ) (i : Fin D) : (1/2) * (v + 1 - ((i : ℝ) + 1)) = v / 2 - (i : ℝ) / 2 := by
  ring

theorem nwExpStats_eq (p : NW D) (h : NWValid p) : nwExpStats p = .ok (nwT p) := by
  unfold nwExpStats
  rw [nwLogdet_eq _ h.2.1]
  dsimp only [nwT, nwTBlocks]
  simp only [half_idx]
  rw [frob_outer, smul_mulVec, dotProduct_smul, smul_eq_mul]

theorem nwLogNorm_eq (p : NW D) (h : NWValid p) : nwLogNorm p = .ok (nwA p) := by
  unfold nwLogNorm
  rw [nwLogdet_eq _ h.2.1]
  dsimp only [nwA]
  simp only [half_idx]

theorem nwValid_det {p : NW D} (h : NWValid p) : p.W.det ≠ 0 := h.2.1.det_pos.ne'

theorem nwNatural_eq (p : NW D) (h : NWValid p) : nwNatural p = .ok (nwN p) :=
  nwNatural_enc p (nwValid_det h)

/-- The KL divergence in natural form. -/
noncomputable def nwKlVal (p q : NW D) : ℝ := nwA q - nwA p - vdot (nwT p) (vsub (nwN q) (nwN p))

theorem nwKl_eq (p q : NW D) (hp : NWValid p) (hq : NWValid q) : nwKl p q = .ok (nwKlVal p q) := by
  unfold nwKl
  rw [if_neg (by simp), nwNatural_eq p hp, nwNatural_eq q hq, nwExpStats_eq p hp, nwLogNorm_eq p hp,
    nwLogNorm_eq q hq]
  rfl

theorem nwKlVal_formula (p q : NW D) (hp : NWValid p) (hq : NWValid q) :
    nwKlVal p q =
      (∑ i : Fin D, (lgamma (q.dof / 2 - (i : ℝ) / 2) - lgamma (p.dof / 2 - (i : ℝ) / 2) -
        digamma (p.dof / 2 - (i : ℝ) / 2) * (q.dof / 2 - p.dof / 2))) +
      ((p.dof / 2) * (p.W * q.W⁻¹).trace - (q.dof / 2) * (log p.W.det - log q.W.det)
        - (p.dof / 2) * D) +
      (1/2) * p.dof * q.scale * ((p.mean - q.mean) ⬝ᵥ p.W *ᵥ (p.mean - q.mean)) +
      (D : ℝ) / 2 * (q.scale / p.scale - 1 - log (q.scale / p.scale)) := by
  have hs := posDef_isSymm hp.2.1
  have hk := hp.1
  have hk' := hq.1
  unfold nwKlVal
  have e1 : vsub (nwN q) (nwN p) = nwEnc (q.scale • q.mean - p.scale • p.mean)
      (q.W⁻¹ + q.scale • outer q.mean - (p.W⁻¹ + p.scale • outer p.mean)) (q.scale - p.scale)
      (q.dof - D - (p.dof - D)) := nwEnc_vsub _ _ _ _ _ _ _ _
  rw [e1, nwT, vdot_nwEnc]
  have e2 : ∑ i, ∑ j, (p.dof • p.W) i j *
      (q.W⁻¹ + q.scale • outer q.mean - (p.W⁻¹ + p.scale • outer p.mean)) i j =
      p.dof * ((p.W * q.W⁻¹).trace + q.scale * (q.mean ⬝ᵥ p.W *ᵥ q.mean) - D
        - p.scale * (p.mean ⬝ᵥ p.W *ᵥ p.mean)) := by
    rw [← frob_outer, ← frob_outer, ← frob_eq_trace _ _ hs]
    have hD : (D : ℝ) = ∑ i, ∑ j, p.W i j * p.W⁻¹ i j := by
      rw [frob_eq_trace _ _ hs, mul_nonsing_inv _ (isUnit_iff_ne_zero.2 (nwValid_det hp))]
      simp
    rw [hD]
    simp only [Finset.mul_sum, ← Finset.sum_add_distrib, ← Finset.sum_sub_distrib]
    refine Finset.sum_congr rfl fun i _ => Finset.sum_congr rfl fun j _ => ?_
    simp only [Matrix.smul_apply, Matrix.sub_apply, Matrix.add_apply, smul_eq_mul]
    ring
  have e3 : (p.dof • p.W *ᵥ p.mean) ⬝ᵥ (q.scale • q.mean - p.scale • p.mean) =
      p.dof * (q.scale * (p.mean ⬝ᵥ p.W *ᵥ q.mean) - p.scale * (p.mean ⬝ᵥ p.W *ᵥ p.mean)) := by
    rw [dotProduct_sub, dotProduct_smul, dotProduct_smul, smul_dotProduct, smul_dotProduct,
      dotProduct_comm _ q.mean, dotProduct_comm _ p.mean, quad_symm _ hs q.mean p.mean]
    simp only [smul_eq_mul]
    ring
  have e4 : (p.mean - q.mean) ⬝ᵥ p.W *ᵥ (p.mean - q.mean) = p.mean ⬝ᵥ p.W *ᵥ p.mean
      - 2 * (p.mean ⬝ᵥ p.W *ᵥ q.mean) + q.mean ⬝ᵥ p.W *ᵥ q.mean := by
    rw [mulVec_sub, dotProduct_sub, sub_dotProduct, sub_dotProduct, quad_symm _ hs q.mean p.mean]
    ring
  have e5 : ∑ i : Fin D, (lgamma (q.dof / 2 - (i : ℝ) / 2) - lgamma (p.dof / 2 - (i : ℝ) / 2) -
        digamma (p.dof / 2 - (i : ℝ) / 2) * (q.dof / 2 - p.dof / 2)) =
      (∑ i : Fin D, lgamma (q.dof / 2 - (i : ℝ) / 2)) -
      (∑ i : Fin D, lgamma (p.dof / 2 - (i : ℝ) / 2)) -
      (∑ i : Fin D, digamma (p.dof / 2 - (i : ℝ) / 2)) * (q.dof / 2 - p.dof / 2) := by
    rw [Finset.sum_sub_distrib, Finset.sum_sub_distrib, Finset.sum_mul]
  rw [e2, e3, e4, e5, nwA, nwA, Real.log_div hk'.ne' hk.ne']
  field_simp
  ring

theorem conj_posDef (p q : NW D) (hp : NWValid p) (hq : NWValid q) :
    ∃ M : Matrix (Fin D) (Fin D) ℝ, M.PosDef ∧ M.trace = (p.W * q.W⁻¹).trace ∧
      log M.det = log p.W.det - log q.W.det ∧ (M = 1 → p.W = q.W) := by
  obtain ⟨L, hL⟩ := exists_cholesky _ hq.2.1.inv
  have hLL := cholesky_mul _ _ (posDef_isSymm hq.2.1.inv) hL
  have hdetL : L.det ≠ 0 := by
    intro h
    have h1 := hq.2.1.inv.det_pos
    rw [← hLL, det_mul, h, zero_mul] at h1
    exact lt_irrefl _ h1
  have hu : IsUnit L := (isUnit_iff_isUnit_det _).2 (isUnit_iff_ne_zero.2 hdetL)
  have hut : IsUnit Lᵀ := (isUnit_iff_isUnit_det _).2 (by
    rw [det_transpose]; exact isUnit_iff_ne_zero.2 hdetL)
  refine ⟨Lᵀ * p.W * L, ?_, ?_, ?_, ?_⟩
  · have := hut.posDef_star_right_conjugate_iff (x := p.W)
    rw [star_eq_conjTranspose, conjTranspose_eq_transpose_of_trivial, transpose_transpose] at this
    exact this.2 hp.2.1
  · rw [trace_mul_cycle, hLL, trace_mul_comm]
  · have hW := (nwValid_det hp)
    have hW' := (nwValid_det hq)
    have h3 : L.det * L.det = (q.W.det)⁻¹ := by
      have := congrArg det hLL
      rw [det_mul, det_transpose, det_nonsing_inv] at this
      rw [this]
      simp
    rw [det_mul, det_mul, det_transpose]
    have : L.det * p.W.det * L.det = p.W.det * (q.W.det)⁻¹ := by rw [← h3]; ring
    rw [this, Real.log_mul hW (inv_ne_zero hW'), Real.log_inv]
    ring
  · intro h
    have h1 : p.W * (L * Lᵀ) = 1 := by
      have h2 : Lᵀ * (p.W * L) = 1 := by rw [← Matrix.mul_assoc]; exact h
      have h3 := mul_eq_one_comm.1 h2
      rw [← Matrix.mul_assoc]
      exact h3
    rw [hLL] at h1
    have h4 : p.W * q.W⁻¹ * q.W = q.W := by rw [h1, Matrix.one_mul]
    rwa [Matrix.mul_assoc, nonsing_inv_mul _ (isUnit_iff_ne_zero.2 (nwValid_det hq)),
      Matrix.mul_one] at h4

theorem nw_idx {v : ℝ} (h : (D : ℝ) - 1 < v) (i : Fin D) : (i : ℝ) / 2 < v / 2 := by
  have h1 : ((i : ℕ) : ℝ) + 1 ≤ (D : ℝ) := by exact_mod_cast i.2
  linarith

theorem nwKl_parts (p q : NW D) (hp : NWValid p) (hq : NWValid q) (hD : 1 ≤ D) :
    0 ≤ (∑ i : Fin D, (lgamma (q.dof / 2 - (i : ℝ) / 2) - lgamma (p.dof / 2 - (i : ℝ) / 2) -
        digamma (p.dof / 2 - (i : ℝ) / 2) * (q.dof / 2 - p.dof / 2))) +
      ((p.dof / 2) * (p.W * q.W⁻¹).trace - (q.dof / 2) * (log p.W.det - log q.W.det)
        - (p.dof / 2) * D) ∧
    (p.dof ≠ q.dof →
      0 < (∑ i : Fin D, (lgamma (q.dof / 2 - (i : ℝ) / 2) - lgamma (p.dof / 2 - (i : ℝ) / 2) -
        digamma (p.dof / 2 - (i : ℝ) / 2) * (q.dof / 2 - p.dof / 2))) +
      ((p.dof / 2) * (p.W * q.W⁻¹).trace - (q.dof / 2) * (log p.W.det - log q.W.det)
        - (p.dof / 2) * D)) := by
  obtain ⟨M, hM, ht, hd, -⟩ := conj_posDef p q hp hq
  have hD1 : (1 : ℝ) ≤ D := by exact_mod_cast hD
  have hx : 0 < p.dof / 2 := by have := hp.2.2; linarith
  have hx' : 0 < q.dof / 2 := by have := hq.2.2; linarith
  have h1 := trace_logdet M hM hx hx'
  rw [ht, hd] at h1
  have h2 : (D : ℝ) * ((q.dof / 2) * log ((q.dof / 2) / (p.dof / 2)) - (q.dof / 2 - p.dof / 2)) =
      ∑ _i : Fin D, ((q.dof / 2) * log ((q.dof / 2) / (p.dof / 2)) - (q.dof / 2 - p.dof / 2)) := by
    rw [Finset.sum_const, Finset.card_univ, Fintype.card_fin, nsmul_eq_mul]
  constructor
  · have h3 := Finset.sum_le_sum fun (i : Fin D) (_ : i ∈ Finset.univ) =>
      lgamma_term (x := p.dof / 2) (x' := q.dof / 2) (c := (i : ℝ) / 2) (by positivity)
        (nw_idx hp.2.2 i) (nw_idx hq.2.2 i)
    rw [← h2] at h3
    linarith
  · intro hne
    have h3 := Finset.sum_lt_sum_of_nonempty (s := (Finset.univ : Finset (Fin D)))
      ⟨⟨0, hD⟩, Finset.mem_univ _⟩ fun (i : Fin D) (_ : i ∈ Finset.univ) =>
      lgamma_term_strict (x := p.dof / 2) (x' := q.dof / 2) (c := (i : ℝ) / 2) (by positivity)
        (nw_idx hp.2.2 i) (nw_idx hq.2.2 i) (by intro h; exact hne (by linarith))
    rw [← h2] at h3
    linarith

theorem nw_quad_nonneg {W : Matrix (Fin D) (Fin D) ℝ} (hW : W.PosDef) (v : Fin D → ℝ) :
    0 ≤ v ⬝ᵥ W *ᵥ v := by
  have := hW.posSemidef.dotProduct_mulVec_nonneg v
  simpa using this

theorem nwKlVal_nonneg (p q : NW D) (hp : NWValid p) (hq : NWValid q) : 0 ≤ nwKlVal p q := by
  rw [nwKlVal_formula p q hp hq]
  have h3 := itakura_nonneg (show 0 < q.scale / p.scale from div_pos hq.1 hp.1)
  have h4 : 0 ≤ (D : ℝ) / 2 * (q.scale / p.scale - 1 - log (q.scale / p.scale)) := by positivity
  rcases Nat.eq_zero_or_pos D with h0 | hD
  · subst h0
    have : (p.mean - q.mean) ⬝ᵥ p.W *ᵥ (p.mean - q.mean) = 0 := by simp [dotProduct]
    rw [this]
    simp [trace]
  · have h1 := (nwKl_parts p q hp hq hD).1
    have h2 := nw_quad_nonneg hp.2.1 (p.mean - q.mean)
    have hv : 0 < p.dof := by
      have := hp.2.2
      have hD1 : (1 : ℝ) ≤ D := by exact_mod_cast hD
      linarith
    have hk := hq.1
    have h5 : 0 ≤ (1/2) * p.dof * q.scale * ((p.mean - q.mean) ⬝ᵥ p.W *ᵥ (p.mean - q.mean)) := by
      positivity
    linarith

theorem nwKlVal_self (p : NW D) : nwKlVal p p = 0 := by
  unfold nwKlVal
  have e1 : vsub (nwN p) (nwN p) = nwEnc (D := D) 0 0 0 0 := by
    unfold nwN
    rw [nwEnc_vsub]
    simp
  rw [e1, nwT, vdot_nwEnc]
  simp

theorem nwKlVal_eq_zero (p q : NW D) (hp : NWValid p) (hq : NWValid q) (hD : 1 ≤ D)
    (h : nwKlVal p q = 0) : p = q := by
  rw [nwKlVal_formula p q hp hq] at h
  have hr : 0 < q.scale / p.scale := div_pos hq.1 hp.1
  have h3 := itakura_nonneg hr
  obtain ⟨h1, h1'⟩ := nwKl_parts p q hp hq hD
  have h2 := nw_quad_nonneg hp.2.1 (p.mean - q.mean)
  have hD1 : (1 : ℝ) ≤ D := by exact_mod_cast hD
  have hv : 0 < p.dof := by have := hp.2.2; linarith
  have hk := hq.1
  have h5 : 0 ≤ (1/2) * p.dof * q.scale * ((p.mean - q.mean) ⬝ᵥ p.W *ᵥ (p.mean - q.mean)) := by
    positivity
  have h4 : 0 ≤ (D : ℝ) / 2 * (q.scale / p.scale - 1 - log (q.scale / p.scale)) := by positivity
  have hdof : p.dof = q.dof := by
    by_contra hne
    have := h1' hne
    linarith
  have hscale : p.scale = q.scale := by
    have : (D : ℝ) / 2 * (q.scale / p.scale - 1 - log (q.scale / p.scale)) = 0 := by linarith
    have h6 := (mul_eq_zero.1 this).resolve_left (by positivity)
    have h7 := (itakura_eq_zero hr).1 h6
    rw [div_eq_one_iff_eq hp.1.ne'] at h7
    exact h7.symm
  have hmean : p.mean = q.mean := by
    have h6 : (1/2) * p.dof * q.scale * ((p.mean - q.mean) ⬝ᵥ p.W *ᵥ (p.mean - q.mean)) = 0 := by
      linarith
    have h7 := (mul_eq_zero.1 h6).resolve_left (by positivity)
    by_contra hne
    have h8 := hp.2.1.dotProduct_mulVec_pos (sub_ne_zero.2 hne)
    rw [show star (p.mean - q.mean) = p.mean - q.mean from rfl, h7] at h8
    exact lt_irrefl _ h8
  have hW : p.W = q.W := by
    obtain ⟨M, hM, ht, hd, hone⟩ := conj_posDef p q hp hq
    apply hone
    apply trace_logdet_eq M hM
    have h6 : (∑ i : Fin D, (lgamma (q.dof / 2 - (i : ℝ) / 2) - lgamma (p.dof / 2 - (i : ℝ) / 2) -
        digamma (p.dof / 2 - (i : ℝ) / 2) * (q.dof / 2 - p.dof / 2))) = 0 := by
      rw [hdof]; simp
    rw [h6, ← hdof] at h
    rw [h6, ← hdof] at h1
    have h7 : (p.dof / 2) * (p.W * q.W⁻¹).trace - (p.dof / 2) * (log p.W.det - log q.W.det)
        - (p.dof / 2) * D = 0 := by linarith
    have h8 : (p.dof / 2) * ((p.W * q.W⁻¹).trace - (log p.W.det - log q.W.det) - D) = 0 := by
      rw [← h7]; ring
    have h9 := (mul_eq_zero.1 h8).resolve_left (by positivity)
    rw [ht, hd]
    linarith
  exact NW.ext hmean hscale hW hdof

end Verif.Dists
