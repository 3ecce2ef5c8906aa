import Mathlib.LinearAlgebra.Matrix.Block
import Verif.Lemmas.NormalWishart
import Verif.Props.Likelihood

/-!
# C37, C76, C77 and the full-covariance parts of C31, C42, C43
-/

namespace Verif.Props

open Verif Verif.Dists Verif.DistSpec Real Matrix

/-! ## C37: round trip -/

/-- C37: converting a Normal-Wishart with invertible scale matrix (and non-zero scale) to natural
parameters and back gives the same distribution, of the same dimension. -/
theorem C37_normalwishart_roundtrip {D : ℕ} (p : NW D) (hk : p.scale ≠ 0) (hW : p.W.det ≠ 0) :
    ∃ n, nwNatural p = .ok n ∧ n.length = D + D * D + 2 ∧ nwFromNatural n = .ok ⟨D, p⟩ := by
  refine ⟨_, nwNatural_enc p hW, length_nwEnc _ _ _ _, ?_⟩
  rw [nwFromNatural_enc]
  have e : (fun i => (p.scale • p.mean) i / p.scale) = p.mean := by
    funext i
    simp only [Pi.smul_apply, smul_eq_mul]
    rw [mul_div_cancel_left₀ _ hk]
  rw [e, add_sub_cancel_right]
  have hdet : (p.W⁻¹).det ≠ 0 := by
    rw [det_nonsing_inv]
    simpa using hW
  rw [if_neg hdet]
  congr 2
  ext1
  · exact e
  · rfl
  · dsimp only [nwDec]
    rw [e, add_sub_cancel_right, nonsing_inv_nonsing_inv _ (isUnit_iff_ne_zero.2 hW)]
  · dsimp only [nwDec]
    ring

example : ∃ n, nwNatural (⟨![1, 2], 3, !![2, 1; 1, 2], 5⟩ : NW 2) = .ok n ∧ n.length = 8 ∧
    nwFromNatural n = .ok ⟨2, ⟨![1, 2], 3, !![2, 1; 1, 2], 5⟩⟩ :=
  C37_normalwishart_roundtrip _ (by norm_num) (by simp [det_fin_two]; norm_num)

/-- The only failure of the conversion to natural parameters is a singular scale matrix. -/
theorem C37_natural_error_iff {D : ℕ} (p : NW D) (e : Err) :
    nwNatural p = .error e ↔ p.W.det = 0 ∧ e = .runtimeError := by
  unfold nwNatural tinverse
  split_ifs with h
  · simp [h, eq_comm]
  · simp [h]

/-- Every vector of length `D + D² + 2` is made of the four blocks. -/
theorem exists_nwEnc (D : ℕ) (n : List ℝ) (h : n.length = D + D * D + 2) :
    ∃ (a : Fin D → ℝ) (B : Matrix (Fin D) (Fin D) ℝ) (k e : ℝ), n = nwEnc a B k e := by
  refine ⟨fun i => n.getD i 0, Matrix.of fun i j => -2 * n.getD (D + (i * D + j)) 0,
    -2 * n.getD (D + D * D) 0, 2 * n.getD (D + D * D + 1) 0, ?_⟩
  apply List.ext_getElem (by rw [h, length_nwEnc])
  intro q h1 h2
  rw [← List.getD_eq_getElem n 0 h1, ← List.getD_eq_getElem _ 0 h2]
  unfold nwEnc
  by_cases hq : q < D
  · rw [List.append_assoc, List.getD_append _ _ _ _ (by simpa using hq),
      List.getD_eq_getElem (List.ofFn _) _ (by simpa using hq)]
    simp
  · push Not at hq
    rw [List.append_assoc, List.getD_append_right _ _ _ _ (by simpa using hq)]
    simp only [List.length_ofFn]
    by_cases hq2 : q - D < D * D
    · rw [List.getD_append _ _ _ _ (by rw [length_flat]; exact hq2)]
      have hD : 0 < D := by
        rcases Nat.eq_zero_or_pos D with h0 | h0
        · subst h0; simp at hq2
        · exact h0
      have hi : (q - D) / D < D := Nat.div_lt_of_lt_mul hq2
      have hj : (q - D) % D < D := Nat.mod_lt _ hD
      have hdm : (q - D) / D * D + (q - D) % D = q - D := by
        rw [Nat.mul_comm]; exact Nat.div_add_mod _ _
      have := flat_getD (-(1/2 : ℝ) • Matrix.of fun i j : Fin D => -2 * n.getD (D + (i * D + j)) 0)
        ⟨(q - D) / D, hi⟩ ⟨(q - D) % D, hj⟩
      simp only [hdm] at this
      rw [this]
      simp only [Matrix.smul_apply, of_apply, smul_eq_mul, hdm]
      rw [show D + (q - D) = q by omega]
      ring
    · push Not at hq2
      rw [List.getD_append_right _ _ _ _ (by rw [length_flat]; exact hq2), length_flat]
      have hq3 : q < D + D * D + 2 := h ▸ h1
      rcases (show q = D + D * D ∨ q = D + D * D + 1 by omega) with rfl | rfl
      · rw [show D + D * D - D - D * D = 0 by omega]
        simp only [List.getD_cons_zero]
        ring
      · rw [show D + D * D + 1 - D - D * D = 1 by omega]
        simp only [List.getD_cons_succ, List.getD_cons_zero]
        ring

/-- C37, conversely: whatever vector of `D + D² + 2` numbers with a non-zero scale entry the
conversion accepts is given back by `natural_parameters`. -/
theorem C37_normalwishart_converse {D : ℕ} (n : List ℝ) (h : n.length = D + D * D + 2)
    (hk : n.getD (n.length - 2) 0 ≠ 0) (q : Σ D : ℕ, NW D) (hq : nwFromNatural n = .ok q) :
    q.1 = D ∧ nwNatural q.2 = .ok n := by
  obtain ⟨a, B, k, e, rfl⟩ := exists_nwEnc D n h
  have hk' : k ≠ 0 := by
    rintro rfl
    apply hk
    rw [length_nwEnc]
    unfold nwEnc
    rw [List.getD_append_right _ _ _ _ (by simp [length_flat])]
    simp [length_flat]
  rw [nwFromNatural_enc] at hq
  split_ifs at hq with hdet
  rw [Except.ok.injEq] at hq
  subst hq
  refine ⟨rfl, ?_⟩
  rw [nwNatural_enc]
  · dsimp only [nwDec]
    rw [nonsing_inv_nonsing_inv _ (isUnit_iff_ne_zero.2 hdet), sub_add_cancel, add_sub_cancel_right]
    congr 2
    funext i
    simp only [Pi.smul_apply, smul_eq_mul]
    field_simp
  · dsimp only [nwDec]
    rw [det_nonsing_inv]
    simpa using hdet

/-! ## C76: conjugate update -/

theorem nwUpdate_eq {D : ℕ} (prior post : NW D) (hp : prior.W.det ≠ 0) (hq : post.W.det ≠ 0)
    (data : WData D) (t : ℝ) :
    nwUpdate prior post (wsum (D + D * D + 2) (data.map fun e => (e.1, nwStats e.2))) t =
      nwFromNatural (nwEnc
        (post.scale • post.mean + t • (prior.scale • prior.mean + wfirst data
          - post.scale • post.mean))
        (post.W⁻¹ + post.scale • outer post.mean + t • (prior.W⁻¹ + prior.scale • outer prior.mean
          + wsecond data - (post.W⁻¹ + post.scale • outer post.mean)))
        (post.scale + t * (prior.scale + wcount data - post.scale))
        ((post.dof - D) + t * (prior.dof - D + wcount data - (post.dof - D)))) := by
  unfold nwUpdate
  rw [nwNatural_enc prior hp, nwNatural_enc post hq, wsum_nwStats]
  dsimp only
  rw [nwEnc_vadd, nwEnc_vsub, nwEnc_vsmul, nwEnc_vadd]

theorem decode_valid {D : ℕ} (a : Fin D → ℝ) (B : Matrix (Fin D) (Fin D) ℝ) (k e : ℝ)
    (h : NV a B k) (he : (-1 : ℝ) < e) :
    nwFromNatural (nwEnc a B k e) = .ok ⟨D, nwDec a B k e⟩ ∧ NWValid (nwDec a B k e) := by
  have hpd := (nv_iff_posDef a B k h.1).1 h
  have hdet : (B - k • outer (fun i => a i / k)).det ≠ 0 :=
    (isUnit_iff_isUnit_det _).1 hpd.isUnit |>.ne_zero
  refine ⟨?_, h.1, hpd.inv, ?_⟩
  · rw [nwFromNatural_enc, if_neg hdet]
  · dsimp only [nwDec]
    linarith

/-- C76: with learning rate one the Normal-Wishart posterior is the textbook one, whatever the
previous posterior: scale `k = k0 + Σ r`, mean `(k0 m0 + Σ r x) / k`, inverse scale matrix
`W0⁻¹ + Σ r x xᵀ + k0 m0 m0ᵀ − k m mᵀ`, degrees of freedom `v0 + Σ r`. -/
theorem C76_normalwishart_textbook_update {D : ℕ} (prior post : NW D) (hp : NWValid prior)
    (hq : NWValid post) (data : WData D) (hr : ∀ e ∈ data, 0 ≤ e.1) :
    ∃ p : NW D,
      nwUpdate prior post (wsum (D + D * D + 2) (data.map fun e => (e.1, nwStats e.2))) 1 =
        .ok ⟨D, p⟩ ∧
      p.scale = prior.scale + wcount data ∧
      (∀ i, p.mean i = (prior.scale * prior.mean i + wfirst data i) / p.scale) ∧
      (∀ i j, p.W⁻¹ i j = prior.W⁻¹ i j + wsecond data i j +
        prior.scale * (prior.mean i * prior.mean j) - p.scale * (p.mean i * p.mean j)) ∧
      p.dof = prior.dof + wcount data := by
  have dp : prior.W.det ≠ 0 := (isUnit_iff_isUnit_det _).1 hp.2.1.isUnit |>.ne_zero
  have dq : post.W.det ≠ 0 := (isUnit_iff_isUnit_det _).1 hq.2.1.isUnit |>.ne_zero
  have hNV := nv_add (valid_nv prior hp) (wcount_nonneg data hr) (wsecond_symm data)
    (stats_semi data hr)
  have hd : (-1 : ℝ) < prior.dof - D + wcount data := by
    have := hp.2.2
    have := wcount_nonneg data hr
    linarith
  obtain ⟨h1, h2⟩ := decode_valid _ _ _ _ hNV hd
  rw [nwUpdate_eq prior post dp dq]
  simp only [one_smul, one_mul, add_sub_cancel]
  refine ⟨_, h1, rfl, fun i => rfl, ?_, ?_⟩
  · intro i j
    have hpd := (nv_iff_posDef _ _ _ hNV.1).1 hNV
    dsimp only [nwDec]
    rw [nonsing_inv_nonsing_inv _ ((isUnit_iff_isUnit_det _).1 hpd.isUnit)]
    simp only [Matrix.sub_apply, Matrix.add_apply, Matrix.smul_apply, outer, of_apply, smul_eq_mul]
    ring
  · dsimp only [nwDec]
    ring

theorem wcount_perm {D : ℕ} {d d' : WData D} (h : d.Perm d') : wcount d = wcount d' :=
  (h.map _).sum_eq

/-- C76: the order of the data is irrelevant. -/
theorem C76_normalwishart_update_order {D : ℕ} (prior post : NW D) (data data' : WData D) (t : ℝ)
    (h : data.Perm data') :
    nwUpdate prior post (wsum (D + D * D + 2) (data.map fun e => (e.1, nwStats e.2))) t =
    nwUpdate prior post (wsum (D + D * D + 2) (data'.map fun e => (e.1, nwStats e.2))) t := by
  rw [wsum_nwStats, wsum_nwStats, wcount_perm h]
  have e1 : wfirst data = wfirst data' := by
    funext i; exact (h.map _).sum_eq
  have e2 : wsecond data = wsecond data' := by
    ext i j; exact (h.map _).sum_eq
  rw [e1, e2]

/-! ## C31 for the Normal-Wishart -/

/-- A training: the updates of a sequence of (learning rate, weighted data). -/
noncomputable def nwTrain {D : ℕ} (prior : NW D) : NW D → List (ℝ × WData D) → Except Err (NW D)
  | post, [] => .ok post
  | post, (t, data) :: rest =>
    match nwUpdate prior post (wsum (D + D * D + 2) (data.map fun e => (e.1, nwStats e.2))) t with
    | .error e => .error e
    | .ok ⟨D', p⟩ => if h : D' = D then nwTrain prior (h ▸ p) rest else .error .runtimeError

/-- C31 for the Normal-Wishart: a training of any length, with learning rates in `(0, 1]` and any
non-negative responsibilities, succeeds, keeps the dimension and ends in a valid posterior. -/
theorem C31_normalwishart_stays_valid {D : ℕ} (prior post : NW D) (hp : NWValid prior)
    (hq : NWValid post) (steps : List (ℝ × WData D))
    (hs : ∀ s ∈ steps, 0 < s.1 ∧ s.1 ≤ 1 ∧ ∀ e ∈ s.2, 0 ≤ e.1) :
    ∃ p, nwTrain prior post steps = .ok p ∧ NWValid p := by
  induction steps generalizing post with
  | nil => exact ⟨post, rfl, hq⟩
  | cons s steps ih =>
    obtain ⟨t, data⟩ := s
    obtain ⟨h0, h1, hr⟩ := hs (t, data) (by simp)
    have dp : prior.W.det ≠ 0 := (isUnit_iff_isUnit_det _).1 hp.2.1.isUnit |>.ne_zero
    have dq : post.W.det ≠ 0 := (isUnit_iff_isUnit_det _).1 hq.2.1.isUnit |>.ne_zero
    have hNV := nv_add (valid_nv prior hp) (wcount_nonneg data hr) (wsecond_symm data)
      (stats_semi data hr)
    have hc := nv_convex (valid_nv post hq) hNV h0 h1
    have hn := wcount_nonneg data hr
    have hd : (-1 : ℝ) < (post.dof - D) + t * (prior.dof - D + wcount data - (post.dof - D)) := by
      have a1 := hp.2.2
      have a2 := hq.2.2
      have : (post.dof - D) + t * (prior.dof - D + wcount data - (post.dof - D)) =
        (1 - t) * (post.dof - D) + t * (prior.dof - D + wcount data) := by ring
      rw [this]
      have b1 : -(1 - t) ≤ (1 - t) * (post.dof - D) := by nlinarith
      have b2 : -t < t * (prior.dof - D + wcount data) := by nlinarith
      linarith
    obtain ⟨e1, e2⟩ := decode_valid _ _ _ _ hc hd
    obtain ⟨p, hp1, hp2⟩ := ih _ e2 (fun s hs' => hs s (by simp [hs']))
    refine ⟨p, ?_, hp2⟩
    rw [nwTrain, nwUpdate_eq prior post dp dq, e1]
    simpa using hp1

example : NWValid (⟨![0, 0], 1, 1, 2⟩ : NW 2) := by
  refine ⟨by norm_num, PosDef.one, by norm_num⟩

/-! ## C42 and C43 for the full-covariance normal -/

theorem nwFactor_ok {D : ℕ} (u v : Fin D → ℝ) (w : List ℝ) (hw : w.length = D * (D - 1) / 2) :
    nwFactor D (List.ofFn u ++ List.ofFn v ++ w) = .ok (Matrix.of fun i j =>
      if j < i then w.getD (trilIdx i j) 0 else if i = j then exp ((1/2) * v i) else 0) := by
  unfold nwFactor
  have h1 : ((List.ofFn u ++ List.ofFn v ++ w).take (2 * D)).drop D = List.ofFn v := by
    rw [List.take_append_of_le_length (by simp; omega), List.take_of_length_le (by simp; omega),
      List.drop_append_of_le_length (by simp), List.drop_of_length_le (by simp), List.nil_append]
  have h2 : (List.ofFn u ++ List.ofFn v ++ w).drop (2 * D) = w := by
    rw [List.drop_append, List.drop_of_length_le (by simp; omega), List.nil_append]
    have : 2 * D - (List.ofFn u ++ List.ofFn v).length = 0 := by simp; omega
    rw [this, List.drop_zero]
  simp only [h1, h2]
  rw [if_neg (by simp [hw]; omega)]
  congr 1
  ext i j
  simp only [of_apply]
  split_ifs with h3 h4
  · rfl
  · rw [List.getD_eq_getElem _ _ (by simp)]
    simp
  · rfl

/-- The lower triangular factor described by `(u, v, w)`: `exp(v/2)` on the diagonal and `w`, row by
row, below. -/
noncomputable def cholFactor {D : ℕ} (v : Fin D → ℝ) (w : List ℝ) : Matrix (Fin D) (Fin D) ℝ :=
  Matrix.of fun i j => if j < i then w.getD (trilIdx i j) 0 else if i = j then exp ((1/2) * v i) else 0

theorem det_cholFactor {D : ℕ} (v : Fin D → ℝ) (w : List ℝ) :
    (cholFactor v w).det = exp ((1/2) * ∑ i, v i) := by
  rw [det_of_isLowerTriangular]
  · rw [Finset.mul_sum, exp_sum]
    apply Finset.prod_congr rfl
    intro i _
    simp [cholFactor]
  · intro i j hij
    have hij : i < j := hij
    simp only [cholFactor, of_apply]
    rw [if_neg (not_lt.2 hij.le), if_neg hij.ne]

theorem det_prec {D : ℕ} (v : Fin D → ℝ) (w : List ℝ) :
    (cholFactor v w * (cholFactor v w)ᵀ).det = exp (∑ i, v i) := by
  rw [det_mul, det_transpose, det_cholFactor, ← exp_add]
  congr 1
  ring

theorem nwPdfvec_eq {D : ℕ} (u v : Fin D → ℝ) (w : List ℝ) (hw : w.length = D * (D - 1) / 2) :
    nwPdfvec D (List.ofFn u ++ List.ofFn v ++ w) = .ok (
      List.ofFn ((cholFactor v w * (cholFactor v w)ᵀ) *ᵥ u) ++
      flat (cholFactor v w * (cholFactor v w)ᵀ) ++
      [u ⬝ᵥ ((cholFactor v w * (cholFactor v w)ᵀ) *ᵥ u), ∑ i, v i]) := by
  unfold nwPdfvec
  rw [nwFactor_ok u v w hw]
  have h1 : ((List.ofFn u ++ List.ofFn v ++ w).take (2 * D)).drop D = List.ofFn v := by
    rw [List.take_append_of_le_length (by simp; omega), List.take_of_length_le (by simp; omega),
      List.drop_append_of_le_length (by simp), List.drop_of_length_le (by simp), List.nil_append]
  have h2 : (fun i : Fin D => ((List.ofFn u ++ List.ofFn v ++ w).take D).getD i 0) = u := by
    funext i
    rw [List.append_assoc]
    exact take_getD_ofFn u _ i
  simp only [h1, h2, List.sum_ofFn]
  have e : (cholFactor v w)ᵀ *ᵥ u ⬝ᵥ (cholFactor v w)ᵀ *ᵥ u =
      u ⬝ᵥ ((cholFactor v w * (cholFactor v w)ᵀ) *ᵥ u) := by
    rw [← mulVec_mulVec, dotProduct_mulVec u, ← mulVec_transpose]
  rw [← e]
  rfl

/-- C43, full-covariance normal: decoding the pdf vector of `(u, v, w)` gives the mean `u` and the
precision `L Lᵀ`, symmetric positive definite, with determinant `exp(Σ v)`. -/
theorem C43_full_decode {D : ℕ} (u v : Fin D → ℝ) (w : List ℝ) (hw : w.length = D * (D - 1) / 2) :
    ∃ n, nwPdfvec D (List.ofFn u ++ List.ofFn v ++ w) = .ok n ∧
      nwParams D n = .ok (u, cholFactor v w * (cholFactor v w)ᵀ) ∧
      (cholFactor v w * (cholFactor v w)ᵀ).PosDef ∧
      (cholFactor v w * (cholFactor v w)ᵀ).det = exp (∑ i, v i) := by
  have hdet : (cholFactor v w * (cholFactor v w)ᵀ).det ≠ 0 := by
    rw [det_prec]; exact (exp_pos _).ne'
  refine ⟨_, nwPdfvec_eq u v w hw, ?_, ?_, det_prec v w⟩
  · unfold nwParams
    have h1 : ∀ (A B C : List ℝ), A.length = D → B.length = D * D →
        ((A ++ B ++ C).take (D + D ^ 2)).drop D = B := by
      intro A B C h h'
      have : D + D ^ 2 = (A ++ B).length := by simp [h, h']; ring
      rw [this, List.take_append_of_le_length le_rfl, List.take_of_length_le le_rfl,
        List.drop_append_of_le_length h.ge, List.drop_of_length_le h.le, List.nil_append]
    simp only [h1 _ _ _ (List.length_ofFn) (length_flat _), unflat_flat]
    unfold tinverse
    rw [if_neg hdet]
    simp only [List.append_assoc, take_getD_ofFn]
    congr 2
    rw [mulVec_mulVec, nonsing_inv_mul _ (isUnit_iff_ne_zero.2 hdet), one_mulVec]
  · have := PosDef.mul_conjTranspose_self (cholFactor v w) (by
      rw [vecMul_injective_iff_isUnit, isUnit_iff_isUnit_det, det_cholFactor]
      exact isUnit_iff_ne_zero.2 (exp_pos _).ne')
    rwa [conjTranspose_eq_transpose_of_trivial] at this

theorem vdot_flat {D : ℕ} (M N : Matrix (Fin D) (Fin D) ℝ) :
    vdot (flat M) (flat N) = ∑ i, ∑ j, M i j * N i j := by
  unfold flat
  rw [vdot_ofFn, ← Fintype.sum_prod_type' (fun i j => M i j * N i j)]
  exact Fintype.sum_equiv finProdFinEquiv.symm _ _ (fun k => rfl)

/-- C42, full-covariance normal: the value returned for the point `x` is its log density under the
normal with the encoded mean and precision. -/
theorem C42_full_log_density {D : ℕ} (u v : Fin D → ℝ) (w : List ℝ)
    (hw : w.length = D * (D - 1) / 2) (x : Fin D → ℝ) :
    ∃ n, nwPdfvec D (List.ofFn u ++ List.ofFn v ++ w) = .ok n ∧
      normalCall D n (nwStats x) =
        .ok (fullNormalLogDensity u (cholFactor v w * (cholFactor v w)ᵀ) x) := by
  refine ⟨_, nwPdfvec_eq u v w hw, ?_⟩
  obtain ⟨P, hP⟩ : ∃ P, P = cholFactor v w * (cholFactor v w)ᵀ := ⟨_, rfl⟩
  have hdet : log P.det = ∑ i, v i := by rw [hP, det_prec, log_exp]
  have hsym : Pᵀ = P := by rw [hP, transpose_mul, transpose_transpose]
  rw [← hP]
  unfold normalCall llhDot nwStats fullNormalLogDensity
  rw [if_neg (by simp [length_flat]), vdot_append _ _ _ _ (by simp [length_flat]),
    vdot_append _ _ _ _ (by simp), vdot_ofFn, vdot_flat, hdet]
  simp only [vdot, List.zipWith_cons_cons, List.zipWith_nil_right, List.sum_cons, List.sum_nil,
    add_zero]
  congr 1
  have e1 : ∑ i, ∑ j, (Matrix.of fun i j => -(1/2 : ℝ) * outer x i j) i j * P i j =
      -(1/2) * (x ⬝ᵥ (P *ᵥ x)) := by
    simp only [dotProduct, mulVec, Finset.mul_sum, of_apply, outer]
    apply Finset.sum_congr rfl; intro i _
    apply Finset.sum_congr rfl; intro j _
    ring
  have e2 : ∑ i, x i * (P *ᵥ u) i = x ⬝ᵥ (P *ᵥ u) := rfl
  have e3 : u ⬝ᵥ (P *ᵥ x) = x ⬝ᵥ (P *ᵥ u) := by
    rw [dotProduct_mulVec, ← mulVec_transpose, hsym, dotProduct_comm]
  rw [e1, e2, mulVec_sub, dotProduct_sub, sub_dotProduct, sub_dotProduct, e3]
  ring

example : ∃ n, nwPdfvec 2 [1, 2, 0, 0, 3] = .ok n ∧ normalCall 2 n (nwStats ![1, 1]) =
    .ok (fullNormalLogDensity ![1, 2] (cholFactor ![0, 0] [3] * (cholFactor ![0, 0] [3])ᵀ) ![1, 1]) := by
  have := C42_full_log_density (D := 2) ![1, 2] ![0, 0] [3] rfl ![1, 1]
  simpa using this

/-- The entries of `w` are placed below the diagonal row by row, each of them once. -/
theorem strictLower_cholFactor {D : ℕ} (v : Fin D → ℝ) (w : List ℝ)
    (hw : w.length = D * (D - 1) / 2) : strictLower (cholFactor v w) = w := by
  have key : ∀ n, n * (n - 1) / 2 ≤ w.length →
      ((List.range n).flatMap fun i => (List.range i).map fun j => w.getD (trilIdx i j) 0) =
        w.take (n * (n - 1) / 2) := by
    intro n
    induction n with
    | zero => simp
    | succ n ih =>
      intro hn
      have e : (n + 1) * (n + 1 - 1) / 2 = n * (n - 1) / 2 + n := by
        cases n with
        | zero => rfl
        | succ m =>
          simp only [Nat.add_sub_cancel]
          rw [show (m + 1 + 1) * (m + 1) = (m + 1) * m + (m + 1) * 2 by ring,
            Nat.add_mul_div_right _ _ (by norm_num)]
      rw [e] at hn ⊢
      rw [List.range_succ, List.flatMap_append, ih (by omega), List.take_add]
      congr 1
      rw [List.flatMap_singleton]
      apply List.ext_getElem
      · simp; omega
      · intro j h1 h2
        simp only [List.length_map, List.length_range] at h1
        simp only [List.getElem_map, List.getElem_range, List.getElem_take, List.getElem_drop]
        rw [List.getD_eq_getElem _ _ (by unfold trilIdx; omega)]
        rfl
  have h2 := key D hw.ge
  rw [← hw, List.take_length] at h2
  conv_rhs => rw [← h2]
  unfold strictLower
  have h3 : (List.finRange D).map Fin.val = List.range D := List.map_coe_finRange_eq_range
  rw [← h3, List.flatMap_map]
  apply List.flatMap_congr
  intro i _
  have h4 : ((List.finRange D).filter (· < i)).map Fin.val = List.range i := by
    have e1 : ((List.finRange D).filter (· < i)).map Fin.val =
        ((List.finRange D).map Fin.val).filter (· < i.val) := by
      rw [List.filter_map]; rfl
    have filt : ∀ a k : ℕ, (List.range' 0 (a + k)).filter (· < a) = List.range' 0 a := by
      intro a k
      rw [← List.range'_append_1, List.filter_append, List.filter_eq_self.2 (by simp),
        List.filter_eq_nil_iff.2 (by intro a ha; simp at ha ⊢; omega), List.append_nil]
    rw [e1, h3, List.range_eq_range', List.range_eq_range', ← filt i.val (D - i.val)]
    congr 2
    omega
  rw [← h4, List.map_map]
  apply List.map_congr_left
  intro j hj
  simp only [List.mem_filter, decide_eq_true_eq] at hj
  simp [cholFactor, hj.2]

/-- C43, full-covariance normal: the precision read back is `L Lᵀ` where `L` is the lower triangular
matrix whose entries below the diagonal, read row by row, are exactly the last coordinates `w`, and
whose diagonal is `exp(v/2)`. -/
theorem C43_full_factor {D : ℕ} (u v : Fin D → ℝ) (w : List ℝ) (hw : w.length = D * (D - 1) / 2) :
    ∃ n, ∃ L : Matrix (Fin D) (Fin D) ℝ, nwPdfvec D (List.ofFn u ++ List.ofFn v ++ w) = .ok n ∧
      nwParams D n = .ok (u, L * Lᵀ) ∧ strictLower L = w ∧ (∀ i, L i i = exp (v i / 2)) ∧
      ∀ i j, i < j → L i j = 0 := by
  obtain ⟨n, h1, h2, -, -⟩ := C43_full_decode u v w hw
  refine ⟨n, cholFactor v w, h1, h2, strictLower_cholFactor v w hw, ?_, ?_⟩
  · intro i
    simp only [cholFactor, of_apply, lt_irrefl, if_false, if_true]
    congr 1
    ring
  · intro i j h
    simp only [cholFactor, of_apply]
    rw [if_neg (not_lt.2 h.le), if_neg h.ne]

/-- A symmetric matrix has at most one factor that is lower triangular with a positive diagonal. -/
theorem lower_factor_unique {D : ℕ} (L M : Matrix (Fin D) (Fin D) ℝ)
    (hL : ∀ i j, i < j → L i j = 0) (hM : ∀ i j, i < j → M i j = 0)
    (pL : ∀ i, 0 < L i i) (pM : ∀ i, 0 < M i i) (h : L * Lᵀ = M * Mᵀ) : L = M := by
  have key : ∀ n : ℕ, ∀ j : Fin D, j.val = n → ∀ i, L i j = M i j := by
    intro n
    induction n using Nat.strong_induction_on with
    | _ n ih =>
      intro j hj
      have row : ∀ i, L i j * L j j = M i j * M j j := by
        intro i
        have e := congrFun (congrFun h i) j
        simp only [mul_apply, transpose_apply] at e
        have split : ∀ N : Matrix (Fin D) (Fin D) ℝ, (∀ a b, a < b → N a b = 0) →
            ∑ k, N i k * N j k = ∑ k ∈ Finset.univ.filter (· < j), N i k * N j k + N i j * N j j := by
          intro N hN
          rw [← Finset.sum_filter_add_sum_filter_not Finset.univ (· < j)]
          congr 1
          rw [Finset.sum_eq_single j]
          · intro k hk hkj
            simp only [Finset.mem_filter, Finset.mem_univ, true_and, not_lt] at hk
            rw [hN j k (lt_of_le_of_ne hk (Ne.symm hkj)), mul_zero]
          · intro hk
            simp at hk
        rw [split L hL, split M hM] at e
        have e2 : ∑ k ∈ Finset.univ.filter (· < j), L i k * L j k =
            ∑ k ∈ Finset.univ.filter (· < j), M i k * M j k := by
          apply Finset.sum_congr rfl
          intro k hk
          simp only [Finset.mem_filter, Finset.mem_univ, true_and] at hk
          have := ih k.val (by rw [← hj]; exact hk) k rfl
          rw [this i, this j]
        linarith
      have hd : L j j = M j j := by
        have := row j
        nlinarith [pL j, pM j]
      intro i
      have := row i
      rw [hd] at this
      exact mul_right_cancel₀ (pM j).ne' this
  ext i j
  exact key j.val j rfl i

/-- C43, full-covariance normal: distinct real vectors give distinct pairs of mean and precision, so
every coordinate matters. -/
theorem C43_full_injective {D : ℕ} (r r' : List ℝ) (h : r.length = nwStatsDim D false)
    (h' : r'.length = nwStatsDim D false) (n n' : List ℝ) (hn : nwPdfvec D r = .ok n)
    (hn' : nwPdfvec D r' = .ok n') (he : nwParams D n = nwParams D n') : r = r' := by
  have parts : ∀ r : List ℝ, r.length = nwStatsDim D false →
      ∃ u v : Fin D → ℝ, ∃ w : List ℝ, w.length = D * (D - 1) / 2 ∧
        r = List.ofFn u ++ List.ofFn v ++ w := by
    intro r h
    have hl : r.length = 2 * D + D * (D - 1) / 2 := by simpa [nwStatsDim] using h
    obtain ⟨u, hu⟩ := exists_ofFn (D := D) (r.take D) (by simp; omega)
    obtain ⟨v, hv⟩ := exists_ofFn (D := D) ((r.drop D).take D) (by simp; omega)
    refine ⟨u, v, r.drop (2 * D), by simp; omega, ?_⟩
    rw [← hu, ← hv, List.append_assoc, two_mul, ← List.drop_drop, List.take_append_drop,
      List.take_append_drop]
  obtain ⟨u, v, w, hw, rfl⟩ := parts r h
  obtain ⟨u', v', w', hw', rfl⟩ := parts r' h'
  obtain ⟨m, L, a1, a2, a3, a4, a5⟩ := C43_full_factor u v w hw
  obtain ⟨m', L', b1, b2, b3, b4, b5⟩ := C43_full_factor u' v' w' hw'
  obtain rfl := Except.ok.inj (a1.symm.trans hn)
  obtain rfl := Except.ok.inj (b1.symm.trans hn')
  rw [a2, b2, Except.ok.injEq, Prod.mk.injEq] at he
  have hLL : L = L' := lower_factor_unique L L' a5 b5 (fun i => by rw [a4]; exact exp_pos _)
    (fun i => by rw [b4]; exact exp_pos _) he.2
  have hv : v = v' := by
    funext i
    have e : exp (v i / 2) = exp (v' i / 2) := by rw [← a4, ← b4, hLL]
    have := exp_injective e
    linarith
  rw [he.1, hv, ← a3, ← b3, hLL]

example : strictLower (!![1, 0, 0; 4, 1, 0; 5, 6, 1] : Matrix (Fin 3) (Fin 3) ℝ) = [4, 5, 6] := by
  simp [strictLower, List.finRange_succ]

example : ∃ n, ∃ L : Matrix (Fin 3) (Fin 3) ℝ,
    nwPdfvec 3 (List.ofFn ![1, 2, 3] ++ List.ofFn ![0, 0, 0] ++ [4, 5, 6]) = .ok n ∧
      nwParams 3 n = .ok (![1, 2, 3], L * Lᵀ) ∧ strictLower L = [4, 5, 6] ∧
      (∀ i, L i i = exp ((![0, 0, 0] : Fin 3 → ℝ) i / 2)) ∧ ∀ i j, i < j → L i j = 0 :=
  C43_full_factor ![1, 2, 3] ![0, 0, 0] [4, 5, 6] rfl

example : ¬ ∃ n n', nwPdfvec 2 [1, 2, 0, 0, 3] = .ok n ∧ nwPdfvec 2 [1, 2, 0, 0, 4] = .ok n' ∧
    nwParams 2 n = nwParams 2 n' := by
  rintro ⟨n, n', h1, h2, h3⟩
  have := C43_full_injective (D := 2) _ _ rfl rfl n n' h1 h2 h3
  simp at this

/-! ## C77: dimensions advertised by the likelihoods -/

/-- C77: the vectors of the advertised subspace dimension `sufficient_statistics_dim(False)` are
accepted by the decoder of the full-covariance likelihood, and their pdf vector has the length of
the sufficient statistics. -/
theorem C77_full_subspace_dim (D : ℕ) (r : List ℝ) (x : Fin D → ℝ)
    (h : r.length = nwStatsDim D false) :
    ∃ n, nwPdfvec D r = .ok n ∧ n.length = (nwStats x).length := by
  have hl : r.length = 2 * D + D * (D - 1) / 2 := by simpa [nwStatsDim] using h
  obtain ⟨u, hu⟩ := exists_ofFn (D := D) (r.take D) (by simp; omega)
  obtain ⟨v, hv⟩ := exists_ofFn (D := D) ((r.drop D).take D) (by simp; omega)
  have hr : r = List.ofFn u ++ List.ofFn v ++ r.drop (2 * D) := by
    rw [← hu, ← hv, List.append_assoc, two_mul, ← List.drop_drop, List.take_append_drop,
      List.take_append_drop]
  have hw : (r.drop (2 * D)).length = D * (D - 1) / 2 := by simp; omega
  rw [hr]
  refine ⟨_, nwPdfvec_eq u v _ hw, ?_⟩
  simp [nwStats, length_flat]

/-- A vector longer than the advertised dimension is refused. -/
theorem C77_full_wrong_dim (D : ℕ) (r : List ℝ) (h : r.length ≠ nwStatsDim D false) :
    nwPdfvec D r = .error .runtimeError := by
  have hl : r.length ≠ 2 * D + D * (D - 1) / 2 := by simpa [nwStatsDim] using h
  unfold nwPdfvec nwFactor
  rw [if_pos]
  simp only [List.length_drop]
  omega

/-- C77 is violated for `zero_stats=True`: from dimension two on, the advertised length of the
sufficient statistics of the full-covariance likelihood is not the length of the statistics. -/
theorem C77_full_stats_dim_negation (D : ℕ) (h : 2 ≤ D) (x : Fin D → ℝ) :
    nwStatsDim D true < (nwStats x).length := by
  obtain ⟨E, rfl⟩ : ∃ E, D = E + 2 := ⟨D - 2, by omega⟩
  simp only [nwStatsDim, nwStats, List.length_append, List.length_ofFn, length_flat, if_true,
    List.length_cons, List.length_nil]
  have h1 : (E + 2) * (E + 2 - 1) / 2 ≤ (E + 2) * (E + 1) / 2 := le_of_eq (by congr 1)
  have h2 : 2 * ((E + 2) * (E + 1) / 2) ≤ (E + 2) * (E + 1) := Nat.mul_div_le _ _
  have h3 : (E + 2) * (E + 2) = (E + 2) * (E + 1) + (E + 2) := by ring
  have h4 : 2 ≤ (E + 2) * (E + 1) := by nlinarith
  nlinarith

end Verif.Props
