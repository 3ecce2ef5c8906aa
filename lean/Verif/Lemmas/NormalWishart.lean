import Mathlib.Tactic.FieldSimp
import Mathlib.Data.List.GetD
import Verif.Spec.NormalWishart
import Verif.Lemmas.KL

/-!
# Lemmas on the Normal-Wishart encoding
-/

namespace Verif.Dists

open Real Matrix Verif.DistSpec

theorem length_flat {D : ℕ} (M : Matrix (Fin D) (Fin D) ℝ) : (flat M).length = D * D := by
  simp [flat]

theorem flat_getD {D : ℕ} (M : Matrix (Fin D) (Fin D) ℝ) (i j : Fin D) :
    (flat M).getD (i.val * D + j.val) 0 = M i j := by
  have hlt : i.val * D + j.val < D * D := by
    have h1 := i.isLt
    have h2 := j.isLt
    calc i.val * D + j.val < i.val * D + D := by omega
      _ = (i.val + 1) * D := by ring
      _ ≤ D * D := Nat.mul_le_mul_right _ h1
  rw [List.getD_eq_getElem _ _ (by rw [length_flat]; exact hlt)]
  have hD : 0 < D := by have := i.isLt; omega
  simp only [flat, List.getElem_ofFn]
  congr 1
  · ext
    simp only [Fin.coe_divNat]
    rw [Nat.mul_comm, Nat.mul_add_div hD, Nat.div_eq_of_lt j.isLt, Nat.add_zero]
  · ext
    simp only [Fin.coe_modNat]
    rw [Nat.mul_comm, Nat.mul_add_mod, Nat.mod_eq_of_lt j.isLt]

theorem unflat_flat {D : ℕ} (M : Matrix (Fin D) (Fin D) ℝ) : unflat D (flat M) = M := by
  ext i j
  simp only [unflat, of_apply]
  exact flat_getD M i j

theorem flat_vadd {D : ℕ} (M N : Matrix (Fin D) (Fin D) ℝ) :
    vadd (flat M) (flat N) = flat (M + N) := by
  simp [vadd, flat, zipWith_ofFn]

theorem flat_vsub {D : ℕ} (M N : Matrix (Fin D) (Fin D) ℝ) :
    vsub (flat M) (flat N) = flat (M - N) := by
  simp [vsub, flat, zipWith_ofFn]

theorem flat_vsmul {D : ℕ} (c : ℝ) (M : Matrix (Fin D) (Fin D) ℝ) :
    vsmul c (flat M) = flat (c • M) := by
  simp [vsmul, flat, List.map_ofFn, Function.comp_def]

/-- The flat natural parameters with blocks `a`, `-B/2`, `-k/2`, `(d - D)/2`. -/
noncomputable def nwEnc {D : ℕ} (a : Fin D → ℝ) (B : Matrix (Fin D) (Fin D) ℝ) (k e : ℝ) :
    List ℝ :=
  List.ofFn a ++ flat (-(1/2 : ℝ) • B) ++ [-(1/2) * k, (1/2) * e]

theorem length_nwEnc {D : ℕ} (a : Fin D → ℝ) (B : Matrix (Fin D) (Fin D) ℝ) (k e : ℝ) :
    (nwEnc a B k e).length = D + D * D + 2 := by
  simp [nwEnc, length_flat]; omega

theorem nwEnc_vadd {D : ℕ} (a a' : Fin D → ℝ) (B B' : Matrix (Fin D) (Fin D) ℝ) (k k' e e' : ℝ) :
    vadd (nwEnc a B k e) (nwEnc a' B' k' e') = nwEnc (a + a') (B + B') (k + k') (e + e') := by
  unfold nwEnc
  rw [vadd_append _ _ _ _ (by simp [length_flat]), vadd_append _ _ _ _ (by simp), flat_vadd,
    ← smul_add]
  congr 1
  · congr 1
    simp [vadd, zipWith_ofFn]
    rfl
  · simp only [vadd, List.zipWith_cons_cons, List.zipWith_nil_right, List.cons.injEq, and_true]
    constructor <;> ring

theorem nwEnc_vsub {D : ℕ} (a a' : Fin D → ℝ) (B B' : Matrix (Fin D) (Fin D) ℝ) (k k' e e' : ℝ) :
    vsub (nwEnc a B k e) (nwEnc a' B' k' e') = nwEnc (a - a') (B - B') (k - k') (e - e') := by
  unfold nwEnc
  rw [vsub_append _ _ _ _ (by simp [length_flat]), vsub_append _ _ _ _ (by simp), flat_vsub,
    ← smul_sub, vsub_ofFn]
  congr 1
  simp only [vsub, List.zipWith_cons_cons, List.zipWith_nil_right, List.cons.injEq, and_true]
  constructor <;> ring

theorem nwEnc_vsmul {D : ℕ} (c : ℝ) (a : Fin D → ℝ) (B : Matrix (Fin D) (Fin D) ℝ) (k e : ℝ) :
    vsmul c (nwEnc a B k e) = nwEnc (c • a) (c • B) (c * k) (c * e) := by
  unfold nwEnc
  rw [vsmul_append, vsmul_append, flat_vsmul, smul_comm]
  congr 1
  · congr 1
    simp [vsmul, List.map_ofFn, Function.comp_def]
    rfl
  · simp only [vsmul, List.map_cons, List.map_nil, List.cons.injEq, and_true]
    constructor <;> ring

theorem nwStats_eq {D : ℕ} (x : Fin D → ℝ) : nwStats x = nwEnc x (outer x) 1 1 := by
  unfold nwStats nwEnc
  simp only [mul_one]
  congr 2

/-- The accumulated statistics. -/
theorem wsum_nwStats {D : ℕ} (data : WData D) :
    wsum (D + D * D + 2) (data.map fun e => (e.1, nwStats e.2)) =
      nwEnc (wfirst data) (wsecond data) (wcount data) (wcount data) := by
  induction data with
  | nil =>
    apply List.ext_getElem
    · simp [wsum, length_nwEnc]
    · intro i h1 h2
      simp only [wsum, List.map_nil, List.getElem_replicate]
      have hz : nwEnc (wfirst ([] : WData D)) (wsecond []) (wcount ([] : WData D))
          (wcount ([] : WData D)) = List.replicate (D + D * D + 2) 0 := by
        have e1 : wfirst ([] : WData D) = fun _ => 0 := by funext i; simp [wfirst]
        have e2 : wsecond ([] : WData D) = 0 := by ext i j; simp [wsecond]
        rw [e1, e2]
        unfold nwEnc
        simp only [wcount, smul_zero, flat, List.map_nil, List.sum_nil, mul_zero, Matrix.zero_apply,
          List.ofFn_const]
        rw [show [(0 : ℝ), 0] = List.replicate 2 0 from rfl, List.replicate_append_replicate,
          List.replicate_append_replicate]
      simp [hz]
  | cons e data ih =>
    simp only [List.map_cons, wsum]
    rw [ih, nwStats_eq, nwEnc_vsmul, nwEnc_vadd]
    have f1 : e.1 • e.2 + wfirst data = wfirst (e :: data) := by
      funext i; simp [wfirst]
    have f2 : e.1 • outer e.2 + wsecond data = wsecond (e :: data) := by
      ext i j; simp [wsecond, outer]
    have f3 : e.1 * 1 + wcount data = wcount (e :: data) := by simp [wcount]
    rw [f1, f2, f3]

theorem nwDim_eq (D : ℕ) : nwDim (D + D * D + 2) = .ok D := by
  unfold nwDim
  have h1 : (1 : ℝ) + 4 * (((D + D * D + 2 : ℕ) : ℝ) - 2) = (2 * (D : ℝ) + 1) ^ 2 := by
    push_cast; ring
  simp only [h1]
  rw [if_neg (by have := sq_nonneg (2 * (D : ℝ) + 1); linarith), Real.sqrt_sq (by positivity)]
  congr 1
  rw [show (1/2 : ℝ) * (-1 + (2 * (D : ℝ) + 1)) = (D : ℝ) by ring, Nat.floor_natCast]

theorem take_getD_ofFn {D : ℕ} (a : Fin D → ℝ) (r : List ℝ) (i : Fin D) :
    ((List.ofFn a ++ r).take D).getD i.val 0 = a i := by
  rw [List.take_append_of_le_length (by simp), List.take_of_length_le (by simp),
    List.getD_eq_getElem _ _ (by simp)]
  simp

/-- The parameters encoded by the blocks. -/
noncomputable def nwDec {D : ℕ} (a : Fin D → ℝ) (B : Matrix (Fin D) (Fin D) ℝ) (k e : ℝ) : NW D where
  mean := fun i => a i / k
  scale := k
  W := (B - k • outer (fun i => a i / k))⁻¹
  dof := e + D

theorem nwFromNatural_enc {D : ℕ} (a : Fin D → ℝ) (B : Matrix (Fin D) (Fin D) ℝ) (k e : ℝ) :
    nwFromNatural (nwEnc a B k e) =
      if (B - k • outer (fun i => a i / k)).det = 0 then .error .runtimeError
      else .ok ⟨D, nwDec a B k e⟩ := by
  unfold nwFromNatural
  rw [length_nwEnc, nwDim_eq]
  dsimp only
  unfold nwFromNaturalDim
  have h1 : ∀ i : Fin D, ((nwEnc a B k e).take D).getD i.val 0 = a i := by
    intro i
    unfold nwEnc
    rw [List.append_assoc]
    exact take_getD_ofFn a _ i
  have h2 : ((nwEnc a B k e).take (D * (D + 1))).drop D = flat (-(1/2 : ℝ) • B) := by
    unfold nwEnc
    have hl : D * (D + 1) = D + D * D := by ring
    rw [hl, List.take_append_of_le_length (by simp [length_flat]),
      List.take_of_length_le (by simp [length_flat]), List.drop_append_of_le_length (by simp),
      List.drop_of_length_le (by simp), List.nil_append]
  have h3 : (nwEnc a B k e).getD ((nwEnc a B k e).length - 2) 0 = -(1/2) * k := by
    rw [length_nwEnc]
    unfold nwEnc
    rw [List.getD_append_right _ _ _ _ (by simp [length_flat])]
    simp [length_flat]
  have h4 : (nwEnc a B k e).getD ((nwEnc a B k e).length - 1) 0 = (1/2) * e := by
    rw [length_nwEnc]
    unfold nwEnc
    rw [List.getD_append_right _ _ _ _ (by simp [length_flat])]
    simp [length_flat]
  simp only [h1, h2, h3, h4, unflat_flat]
  have hk : -2 * (-(1/2) * k) = k := by ring
  have he : 2 * (1/2 * e) = e := by ring
  simp only [hk, he]
  have hM : (Matrix.of fun i j => -2 * (-(1/2 : ℝ) • B) i j - k * outer (fun i => a i / k) i j) =
      B - k • outer (fun i => a i / k) := by
    ext i j
    simp
  rw [hM]
  unfold tinverse
  split_ifs <;> rfl

theorem nwNatural_enc {D : ℕ} (p : NW D) (h : p.W.det ≠ 0) :
    nwNatural p = .ok (nwEnc (p.scale • p.mean) (p.W⁻¹ + p.scale • outer p.mean) p.scale
      (p.dof - D)) := by
  unfold nwNatural tinverse
  rw [if_neg h]
  rfl

/-! ## Validity in terms of the natural parameters -/

/-- Positivity of the blocks `(a, B, k)`: the Schur complement of `k` is positive definite. -/
def NV {D : ℕ} (a : Fin D → ℝ) (B : Matrix (Fin D) (Fin D) ℝ) (k : ℝ) : Prop :=
  0 < k ∧ B.IsSymm ∧ ∀ v : Fin D → ℝ, v ≠ 0 → (a ⬝ᵥ v) ^ 2 < k * (v ⬝ᵥ B *ᵥ v)

theorem outer_quad {D : ℕ} (m v : Fin D → ℝ) : v ⬝ᵥ (outer m *ᵥ v) = (m ⬝ᵥ v) ^ 2 := by
  have : outer m *ᵥ v = (m ⬝ᵥ v) • m := by
    funext i
    simp only [mulVec, dotProduct, outer, of_apply, Pi.smul_apply, smul_eq_mul, Finset.sum_mul]
    apply Finset.sum_congr rfl
    intro j _
    ring
  rw [this, dotProduct_smul, smul_eq_mul, dotProduct_comm v m]
  ring

theorem nv_iff_posDef {D : ℕ} (a : Fin D → ℝ) (B : Matrix (Fin D) (Fin D) ℝ) (k : ℝ) (hk : 0 < k) :
    NV a B k ↔ (B - k • outer (fun i => a i / k)).PosDef := by
  have hq : ∀ v, v ⬝ᵥ ((B - k • outer (fun i => a i / k)) *ᵥ v) =
      v ⬝ᵥ (B *ᵥ v) - (a ⬝ᵥ v) ^ 2 / k := by
    intro v
    rw [sub_mulVec, smul_mulVec, dotProduct_sub, dotProduct_smul, outer_quad]
    have : (fun i => a i / k) ⬝ᵥ v = (a ⬝ᵥ v) / k := by
      simp only [dotProduct, Finset.sum_div]
      apply Finset.sum_congr rfl
      intro i _
      ring
    rw [this, smul_eq_mul]
    field_simp
  have hsym : (outer (fun i => a i / k)).IsSymm := by
    ext i j
    simp [outer, transpose_apply, mul_comm]
  rw [posDef_iff_dotProduct_mulVec]
  unfold NV
  have key : ∀ v, (a ⬝ᵥ v) ^ 2 < k * (v ⬝ᵥ B *ᵥ v) ↔ 0 < v ⬝ᵥ (B *ᵥ v) - (a ⬝ᵥ v) ^ 2 / k := by
    intro v
    rw [sub_pos, div_lt_iff₀ hk, mul_comm k]
  constructor
  · rintro ⟨-, hs, hpos⟩
    refine ⟨?_, ?_⟩
    · rw [IsHermitian, conjTranspose_eq_transpose_of_trivial]
      rw [transpose_sub, transpose_smul, hs.eq, hsym.eq]
    · intro v hv
      rw [show star v = v from rfl, hq, ← key]
      exact hpos v hv
  · rintro ⟨hh, hpos⟩
    refine ⟨hk, ?_, ?_⟩
    · rw [IsHermitian, conjTranspose_eq_transpose_of_trivial, transpose_sub, transpose_smul,
        hsym.eq, sub_left_inj] at hh
      exact hh
    · intro v hv
      rw [key, ← hq]
      exact hpos hv

theorem quad_strict {a b k k' q q' : ℝ} (hk : 0 < k) (hk' : 0 ≤ k') (hq' : 0 ≤ q')
    (ha : a ^ 2 < k * q) (hb : b ^ 2 ≤ k' * q') : (a + b) ^ 2 < (k + k') * (q + q') := by
  have h0 : a ^ 2 = k * (a ^ 2 / k) := by field_simp
  have h1 := quad_over_lin (q := a ^ 2 / k) hk.le hk' (by positivity) hq' h0.le hb
  have h2 : a ^ 2 / k < q := by rw [div_lt_iff₀ hk, mul_comm]; exact ha
  refine h1.trans_lt ?_
  apply mul_lt_mul_of_pos_left _ (by linarith)
  linarith

theorem nv_add {D : ℕ} {a a' : Fin D → ℝ} {B B' : Matrix (Fin D) (Fin D) ℝ} {k k' : ℝ}
    (h : NV a B k) (hk' : 0 ≤ k') (hs : B'.IsSymm)
    (h' : ∀ v : Fin D → ℝ, (a' ⬝ᵥ v) ^ 2 ≤ k' * (v ⬝ᵥ B' *ᵥ v) ∧ 0 ≤ v ⬝ᵥ B' *ᵥ v) :
    NV (a + a') (B + B') (k + k') := by
  obtain ⟨h1, h2, h3⟩ := h
  refine ⟨by linarith, h2.add hs, ?_⟩
  intro v hv
  rw [add_dotProduct, add_mulVec, dotProduct_add]
  exact quad_strict h1 hk' (h' v).2 (h3 v hv) (h' v).1

theorem nv_smul {D : ℕ} {a : Fin D → ℝ} {B : Matrix (Fin D) (Fin D) ℝ} {k : ℝ} (h : NV a B k)
    {c : ℝ} (hc : 0 < c) : NV (c • a) (c • B) (c * k) := by
  obtain ⟨h1, h2, h3⟩ := h
  refine ⟨by positivity, h2.smul c, ?_⟩
  intro v hv
  rw [smul_dotProduct, smul_mulVec, dotProduct_smul, smul_eq_mul, smul_eq_mul]
  have h4 := h3 v hv
  have h5 : c ^ 2 * (a ⬝ᵥ v) ^ 2 < c ^ 2 * (k * (v ⬝ᵥ B *ᵥ v)) :=
    mul_lt_mul_of_pos_left h4 (by positivity)
  nlinarith

theorem nv_semi {D : ℕ} {a : Fin D → ℝ} {B : Matrix (Fin D) (Fin D) ℝ} {k : ℝ} (h : NV a B k)
    (v : Fin D → ℝ) : (a ⬝ᵥ v) ^ 2 ≤ k * (v ⬝ᵥ B *ᵥ v) ∧ 0 ≤ v ⬝ᵥ B *ᵥ v := by
  obtain ⟨h1, h2, h3⟩ := h
  by_cases hv : v = 0
  · subst hv; simp
  · have := h3 v hv
    refine ⟨this.le, ?_⟩
    by_contra hneg
    push Not at hneg
    have := mul_neg_of_pos_of_neg h1 hneg
    have := sq_nonneg (a ⬝ᵥ v)
    linarith

theorem nv_convex {D : ℕ} {a a' : Fin D → ℝ} {B B' : Matrix (Fin D) (Fin D) ℝ} {k k' : ℝ}
    (h : NV a B k) (h' : NV a' B' k') {t : ℝ} (h0 : 0 < t) (h1 : t ≤ 1) :
    NV (a + t • (a' - a)) (B + t • (B' - B)) (k + t * (k' - k)) := by
  rcases h1.eq_or_lt with rfl | hlt
  · simpa using h'
  · have e1 := nv_smul h (show 0 < 1 - t by linarith)
    have e2 := nv_smul h' h0
    have e3 := nv_add e1 e2.1.le e2.2.1 (nv_semi e2)
    have r1 : a + t • (a' - a) = (1 - t) • a + t • a' := by
      funext i; simp; ring
    have r2 : B + t • (B' - B) = (1 - t) • B + t • B' := by
      ext i j; simp; ring
    have r3 : k + t * (k' - k) = (1 - t) * k + t * k' := by ring
    rw [r1, r2, r3]
    exact e3

theorem wsecond_quad {D : ℕ} (data : WData D) (v : Fin D → ℝ) :
    v ⬝ᵥ (wsecond data *ᵥ v) = (data.map fun e => e.1 * (e.2 ⬝ᵥ v) ^ 2).sum := by
  induction data with
  | nil =>
    have : wsecond ([] : WData D) = 0 := by ext i j; simp [wsecond]
    simp [this]
  | cons e data ih =>
    have : wsecond (e :: data) = e.1 • outer e.2 + wsecond data := by
      ext i j; simp [wsecond, outer]
    rw [this, add_mulVec, dotProduct_add, ih, smul_mulVec, dotProduct_smul, outer_quad]
    simp

theorem wfirst_dot {D : ℕ} (data : WData D) (v : Fin D → ℝ) :
    wfirst data ⬝ᵥ v = (data.map fun e => e.1 * (e.2 ⬝ᵥ v)).sum := by
  induction data with
  | nil =>
    have : wfirst ([] : WData D) = 0 := by funext i; simp [wfirst]
    simp [this]
  | cons e data ih =>
    have : wfirst (e :: data) = e.1 • e.2 + wfirst data := by
      funext i; simp [wfirst]
    rw [this, add_dotProduct, ih, smul_dotProduct]
    simp

theorem wcount_nonneg {D : ℕ} (data : WData D) (h : ∀ e ∈ data, 0 ≤ e.1) : 0 ≤ wcount data := by
  apply List.sum_nonneg
  intro x hx
  simp only [List.mem_map] at hx
  obtain ⟨e, he, rfl⟩ := hx
  exact h e he

theorem stats_semi {D : ℕ} (data : WData D) (h : ∀ e ∈ data, 0 ≤ e.1) (v : Fin D → ℝ) :
    (wfirst data ⬝ᵥ v) ^ 2 ≤ wcount data * (v ⬝ᵥ wsecond data *ᵥ v) ∧
      0 ≤ v ⬝ᵥ wsecond data *ᵥ v := by
  have := weighted_sq_le (data.map fun e => (e.1, e.2 ⬝ᵥ v)) (by
    intro d hd
    simp only [List.mem_map] at hd
    obtain ⟨e, he, rfl⟩ := hd
    exact h e he)
  simp only [List.map_map, Function.comp_def] at this
  rw [wfirst_dot, wsecond_quad]
  exact ⟨this.1, this.2.2⟩

theorem wsecond_symm {D : ℕ} (data : WData D) : (wsecond data).IsSymm := by
  ext i j
  simp [wsecond, transpose_apply, mul_comm]

theorem valid_nv {D : ℕ} (p : NW D) (h : NWValid p) :
    NV (p.scale • p.mean) (p.W⁻¹ + p.scale • outer p.mean) p.scale := by
  rw [nv_iff_posDef _ _ _ h.1]
  have e : (fun i => (p.scale • p.mean) i / p.scale) = p.mean := by
    funext i
    simp only [Pi.smul_apply, smul_eq_mul]
    rw [mul_div_cancel_left₀ _ h.1.ne']
  rw [e, add_sub_cancel_right]
  exact h.2.1.inv

end Verif.Dists
