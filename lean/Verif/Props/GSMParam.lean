import Mathlib.Data.List.FinRange
import Mathlib.Algebra.Order.Floor.Semifield
import Verif.Props.WishartKL
import Verif.Spec.GSM
import Verif.Props.NormalDist

/-!
# C100: the parametrisations trained by gradient descent are always valid
-/

namespace Verif.Props

open Verif Verif.GSM Verif.Dists Verif.DistSpec Real Matrix

/-- C100, diagonal covariance: whatever the numbers the optimiser reaches, all the variances are above
`1e-4` and the distribution is valid. -/
theorem C100_diag_valid {D : ℕ} (p : MLDC D) :
    NDValid D p.nd ∧ ∀ d, 1 / 10000 < p.diagCov d := by
  have h : ∀ d, 1 / 10000 < p.diagCov d := fun d => by
    have := exp_pos (p.logVar d)
    unfold MLDC.diagCov; linarith
  refine ⟨⟨by simp [MLDC.nd], by simp [MLDC.nd], ?_⟩, h⟩
  intro x hx
  simp only [MLDC.nd, List.mem_ofFn] at hx
  obtain ⟨d, rfl⟩ := hx
  have := h d
  linarith

/-- C100, diagonal covariance: all the variances above `1e-4` can be reached, each by exactly one
choice of the numbers. -/
theorem C100_diag_onto {D : ℕ} (m s : Fin D → ℝ) (hs : ∀ d, 1 / 10000 < s d) :
    ∃! p : MLDC D, p.mean = m ∧ p.diagCov = s := by
  refine ⟨⟨m, fun d => log (s d - 1 / 10000)⟩, ⟨rfl, ?_⟩, ?_⟩
  · funext d
    have := hs d
    simp only [MLDC.diagCov]
    rw [exp_log (by linarith)]; ring
  · rintro ⟨m', l⟩ ⟨rfl, h⟩
    congr 1
    funext d
    have := congrFun h d
    simp only [MLDC.diagCov] at this
    rw [← this]
    simp

example : ∃! p : MLDC 2, p.mean = ![1, -3] ∧ p.diagCov = ![2, 1 / 5000] :=
  C100_diag_onto _ _ (by intro d; fin_cases d <;> norm_num)

/-! ## Lower triangles -/

theorem trilIndices_succ (D : ℕ) : trilIndices (D + 1) =
    (trilIndices D).map (fun ij => (ij.1.castSucc, ij.2.castSucc)) ++
      (List.finRange D).map fun j => (Fin.last D, j.castSucc) := by
  unfold trilIndices
  rw [List.finRange_succ_last, List.flatMap_append, List.filter_append]
  congr 1
  · rw [List.flatMap_map, List.filter_flatMap, List.filter_flatMap, List.map_flatMap]
    refine List.flatMap_congr fun i _ => ?_
    rw [List.map_append, List.filter_append, List.map_singleton,
      List.filter_singleton]
    have h1 : ¬ Fin.last D < i.castSucc := not_lt.2 (Fin.le_last _)
    simp only [h1, decide_false, cond_false, List.append_nil, List.map_map]
    rw [List.filter_map, List.filter_map, List.map_map]
    rfl
  · simp only [List.flatMap_cons, List.flatMap_nil, List.append_nil, List.map_append, List.map_map,
      List.map_cons, List.map_nil, List.filter_append]
    rw [List.filter_eq_self.2, List.filter_eq_nil_iff.2, List.append_nil]
    · rfl
    · simp
    · intro x hx
      simp only [List.mem_map] at hx
      obtain ⟨j, -, rfl⟩ := hx
      simp [Fin.castSucc_lt_last]

theorem tri_succ (D : ℕ) : (D + 1) * D / 2 = D * (D - 1) / 2 + D := by
  cases D with
  | zero => rfl
  | succ n =>
    have : (n + 1 + 1) * (n + 1) = (n + 1) * n + (n + 1) * 2 := by ring
    rw [this, Nat.add_mul_div_right _ _ two_pos]
    rfl

theorem trilIndices_length (D : ℕ) : (trilIndices D).length = D * (D - 1) / 2 := by
  induction D with
  | zero => rfl
  | succ D ih =>
    rw [trilIndices_succ, List.length_append, List.length_map, List.length_map, ih,
      List.length_finRange, Nat.add_sub_cancel, tri_succ]

theorem trilIndices_get (D : ℕ) (i j : Fin D) (h : j < i) :
    (trilIndices D)[i.1 * (i.1 - 1) / 2 + j.1]? = some (i, j) := by
  induction D with
  | zero => exact i.elim0
  | succ D ih =>
    rw [trilIndices_succ]
    have hj : j.1 < D := by have := i.2; have : j.1 < i.1 := h; omega
    rcases Fin.eq_castSucc_or_eq_last i with ⟨i', rfl⟩ | rfl
    · have := ih i' ⟨j.1, hj⟩ (by simpa [Fin.lt_def] using h)
      have hlt : i'.1 * (i'.1 - 1) / 2 + j.1 < (trilIndices D).length := by
        by_contra hn
        rw [List.getElem?_eq_none (not_lt.1 hn)] at this
        cases this
      rw [List.getElem?_append_left (by simpa using hlt), List.getElem?_map]
      simp only [Fin.val_castSucc]
      rw [this]
      rfl
    · rw [List.getElem?_append_right (by simp [trilIndices_length]), List.length_map,
        trilIndices_length]
      simp only [Fin.val_last, Nat.add_sub_cancel_left, List.getElem?_map]
      rw [List.getElem?_eq_getElem (by simpa using hj)]
      simp

theorem trilIndices_mem (D : ℕ) (ij : Fin D × Fin D) : ij ∈ trilIndices D ↔ ij.2 < ij.1 := by
  simp [trilIndices]

theorem trilIndices_nodup (D : ℕ) : (trilIndices D).Nodup := by
  induction D with
  | zero => simp [trilIndices]
  | succ D ih =>
    rw [trilIndices_succ, List.nodup_append]
    refine ⟨ih.map ?_, (List.nodup_finRange D).map ?_, ?_⟩
    · rintro ⟨a, b⟩ ⟨c, d⟩ h
      simpa using h
    · intro a b h
      simpa using h
    · rintro x hx y hy rfl
      simp only [List.mem_map] at hx hy
      obtain ⟨a, -, rfl⟩ := hx
      obtain ⟨b, -, hb⟩ := hy
      have := (Prod.ext_iff.1 hb).1
      exact (Fin.castSucc_lt_last a.1).ne this.symm

theorem writeAll_not_mem {D : ℕ} (L : Fin D → Fin D → ℝ) (w : List ((Fin D × Fin D) × ℝ))
    (i j : Fin D) (h : (i, j) ∉ w.map Prod.fst) : writeAll L w i j = L i j := by
  induction w generalizing L with
  | nil => rfl
  | cons e w ih =>
    simp only [List.map_cons, List.mem_cons, not_or] at h
    unfold writeAll
    rw [List.foldl_cons]
    refine (ih _ h.2).trans ?_
    rw [if_neg h.1]

theorem writeAll_get {D : ℕ} (L : Fin D → Fin D → ℝ) (w : List ((Fin D × Fin D) × ℝ))
    (hn : (w.map Prod.fst).Nodup) (i j : Fin D) (v : ℝ) (h : ((i, j), v) ∈ w) :
    writeAll L w i j = v := by
  induction w generalizing L with
  | nil => cases h
  | cons e w ih =>
    rw [List.map_cons, List.nodup_cons] at hn
    unfold writeAll
    rw [List.foldl_cons]
    rcases List.mem_cons.1 h with rfl | h
    · refine (writeAll_not_mem _ w i j hn.1).trans ?_
      rw [if_pos rfl]
    · exact ih _ hn.2 h

/-- C100, full covariance: with as many off-diagonal numbers as there are places below the diagonal,
the factor is lower triangular; its diagonal is above `1e-3`; the numbers fill the places below the
diagonal row by row. -/
theorem C100_factor {D : ℕ} (p : MLLL D) (ho : p.off.length = D * (D - 1) / 2) :
    ∃ L, p.factor = .ok L ∧ (∀ i j, i < j → L i j = 0) ∧
      (∀ i, L i i = 1 / 1000 + exp (p.logDiag i)) ∧
      ∀ i j, j < i → p.off[i.1 * (i.1 - 1) / 2 + j.1]? = some (L i j) := by
  have hl : p.off.length = (trilIndices D).length := by rw [ho, trilIndices_length]
  have hfst : (((trilIndices D).zip p.off).map Prod.fst) = trilIndices D :=
    List.map_fst_zip (by omega)
  unfold MLLL.factor
  dsimp only
  rw [if_pos hl]
  refine ⟨_, rfl, ?_, ?_, ?_⟩
  · intro i j h
    rw [of_apply, writeAll_not_mem _ _ _ _ (by rw [hfst, trilIndices_mem]; exact not_lt.2 h.le), if_neg h.ne]
  · intro i
    rw [of_apply, writeAll_not_mem _ _ _ _ (by rw [hfst, trilIndices_mem]; exact lt_irrefl i), if_pos rfl]
  · intro i j h
    have hg := trilIndices_get D i j h
    obtain ⟨hlt, hg'⟩ := List.getElem?_eq_some_iff.1 hg
    have hlt' : i.1 * (i.1 - 1) / 2 + j.1 < p.off.length := by omega
    rw [List.getElem?_eq_getElem hlt']
    congr 1
    rw [of_apply]
    refine (writeAll_get _ _ (by rw [hfst]; exact trilIndices_nodup D) i j _ ?_).symm
    rw [← hg', ← List.getElem_zip (h := by rw [List.length_zip]; omega)]
    exact List.getElem_mem _

theorem factor_isCholesky {D : ℕ} (L : Matrix (Fin D) (Fin D) ℝ) (h1 : ∀ i j, i < j → L i j = 0)
    (h2 : ∀ i, 0 < L i i) : IsCholesky (L * Lᵀ) L := ⟨h1, h2, fun _ _ _ => rfl⟩

theorem mul_transpose_isSymm {D : ℕ} (L : Matrix (Fin D) (Fin D) ℝ) : (L * Lᵀ).IsSymm := by
  unfold IsSymm; simp

/-- A symmetric matrix has at most one Cholesky factor. -/
theorem cholesky_unique {D : ℕ} (S L M : Matrix (Fin D) (Fin D) ℝ) (hL : IsCholesky S L)
    (hM : IsCholesky S M) : L = M := by
  have key : ∀ n, ∀ j : Fin D, j.1 = n → ∀ i, j ≤ i → L i j = M i j := by
    intro n
    induction n using Nat.strong_induction_on with
    | _ n ih =>
      intro j hj
      have hrow : ∀ i, j ≤ i → L i j * L j j = M i j * M j j := by
        intro i hij
        have e : (L * Lᵀ) i j = (M * Mᵀ) i j := by rw [hL.2.2 i j hij, hM.2.2 i j hij]
        simp only [mul_apply, transpose_apply] at e
        have hsplit : ∀ A : Matrix (Fin D) (Fin D) ℝ, (∀ i j, i < j → A i j = 0) →
            ∑ k, A i k * A j k = ∑ k ∈ Finset.univ.filter (· < j), A i k * A j k + A i j * A j j := by
          intro A hA
          rw [← Finset.sum_filter_add_sum_filter_not Finset.univ (· < j)]
          congr 1
          refine Finset.sum_eq_single j ?_ ?_
          · intro k hk hkj
            rw [Finset.mem_filter] at hk
            rw [hA j k (lt_of_le_of_ne (not_lt.1 hk.2) (Ne.symm hkj)), mul_zero]
          · intro h; simp at h
        rw [hsplit L hL.1, hsplit M hM.1] at e
        have : ∑ k ∈ Finset.univ.filter (· < j), L i k * L j k =
            ∑ k ∈ Finset.univ.filter (· < j), M i k * M j k := by
          refine Finset.sum_congr rfl fun k hk => ?_
          have hk' : k < j := (Finset.mem_filter.1 hk).2
          rw [ih k.1 (by rw [← hj]; exact hk') k rfl i (hk'.le.trans hij),
            ih k.1 (by rw [← hj]; exact hk') k rfl j hk'.le]
        linarith
      have hd : L j j = M j j := by
        have h := hrow j le_rfl
        have h1 := hL.2.1 j
        have h2 := hM.2.1 j
        nlinarith [mul_self_inj_of_nonneg h1.le h2.le |>.1 h]
      intro i hij
      have h := hrow i hij
      rw [hd] at h
      exact mul_right_cancel₀ (hM.2.1 j).ne' h
  ext i j
  rcases le_or_gt j i with h | h
  · exact key j.1 j rfl i h
  · rw [hL.1 i j h, hM.1 i j h]

/-- C100, full covariance: whatever the numbers, the covariance matrix is symmetric positive definite,
and the matrix filled with the numbers is its Cholesky factor. -/
theorem C100_full_valid {D : ℕ} (p : MLLL D) (ho : p.off.length = D * (D - 1) / 2) :
    ∃ S L, p.cov = .ok S ∧ p.factor = .ok L ∧ S.PosDef ∧ IsCholesky S L ∧
      (∀ i, 1 / 1000 < L i i) ∧ (1 / 1000 : ℝ) ^ (2 * D) ≤ S.det ∧ FNValid (⟨p.mean, S⟩ : FN D) := by
  obtain ⟨L, h1, h2, h3, -⟩ := C100_factor p ho
  have hd : ∀ i, 1 / 1000 < L i i := fun i => by
    rw [h3]; have := exp_pos (p.logDiag i); linarith
  have hpos : ∀ i, 0 < L i i := fun i => lt_trans (by norm_num) (hd i)
  have hc := factor_isCholesky L h2 hpos
  have hpd := cholesky_posDef _ L (mul_transpose_isSymm L) hc
  refine ⟨L * Lᵀ, L, ?_, h1, hpd, hc, hd, ?_, hpd⟩
  · unfold MLLL.cov; rw [h1]
  · rw [det_mul, det_transpose, det_of_isLowerTriangular L (fun i j hij => h2 i j hij), ← pow_two,
      Nat.mul_comm, pow_mul]
    refine pow_le_pow_left₀ (by positivity) ?_ 2
    calc (1 / 1000 : ℝ) ^ D = ∏ _i : Fin D, (1 / 1000 : ℝ) := by simp
      _ ≤ ∏ i, L i i := Finset.prod_le_prod (fun _ _ => by positivity) fun i _ => (hd i).le

/-- C100, full covariance: every positive definite matrix whose Cholesky factor has a diagonal above
`1e-3` can be reached, by exactly one choice of the numbers. -/
theorem C100_full_onto {D : ℕ} (m : Fin D → ℝ) (S L : Matrix (Fin D) (Fin D) ℝ) (hS : S.IsSymm)
    (hL : IsCholesky S L) (hd : ∀ i, 1 / 1000 < L i i) :
    ∃! p : MLLL D, p.mean = m ∧ p.off.length = D * (D - 1) / 2 ∧ p.cov = .ok S := by
  have back : ∀ p : MLLL D, p.off.length = D * (D - 1) / 2 → p.cov = .ok S → p.factor = .ok L := by
    intro p ho hc
    obtain ⟨S', L', h1, h2, -, h3, -⟩ := C100_full_valid p ho
    rw [h1] at hc
    injection hc with hc
    subst hc
    rw [h2, cholesky_unique _ _ _ h3 hL]
  let p : MLLL D := ⟨m, fun i => log (L i i - 1 / 1000), (trilIndices D).map fun ij => L ij.1 ij.2⟩
  have hpo : p.off.length = D * (D - 1) / 2 := by simp [p, trilIndices_length]
  refine ⟨p, ⟨rfl, hpo, ?_⟩, ?_⟩
  · obtain ⟨M, h1, h2, h3, h4⟩ := C100_factor p hpo
    have hM : M = L := by
      ext i j
      rcases lt_trichotomy i j with h | rfl | h
      · rw [h2 i j h, hL.1 i j h]
      · rw [h3]
        have := hd i
        simp only [p]
        rw [exp_log (by linarith)]; ring
      · have h5 := h4 i j h
        simp only [p, List.getElem?_map] at h5
        rw [trilIndices_get D i j h] at h5
        simpa using h5.symm
    unfold MLLL.cov
    rw [h1, hM]
    simp only
    rw [cholesky_mul S L hS hL]
  · rintro q ⟨rfl, hqo, hqc⟩
    have hf := back q hqo hqc
    obtain ⟨M, h1, -, h3, h4⟩ := C100_factor q hqo
    rw [hf] at h1
    injection h1 with h1
    subst h1
    cases q with
    | mk m' l off =>
      simp only [p, MLLL.mk.injEq, true_and]
      constructor
      · funext i
        rw [h3 i]
        simp
      · simp only at hqo h4
        refine List.ext_getElem (by simp [hqo, trilIndices_length]) fun n hn1 hn2 => ?_
        rw [List.getElem_map]
        have hn3 : n < (trilIndices D).length := by simpa using hn2
        have hmem := List.getElem_mem hn3
        rw [trilIndices_mem] at hmem
        have h6 := h4 _ _ hmem
        have h7 := trilIndices_get D _ _ hmem
        obtain ⟨h8, h9⟩ := List.getElem?_eq_some_iff.1 h7
        have h10 := (trilIndices_nodup D).getElem_inj_iff.1 (h9.trans (by rfl :
          ((trilIndices D)[n].1, (trilIndices D)[n].2) = (trilIndices D)[n]))
        rw [h10, List.getElem?_eq_getElem hn1] at h6
        exact Option.some.inj h6

/-- C100, full covariance: with another number of off-diagonal numbers, except one, building the
covariance raises. -/
theorem C100_wrong_number_raises {D : ℕ} (p : MLLL D) (ho : p.off.length ≠ D * (D - 1) / 2)
    (h1 : p.off.length ≠ 1) : p.cov = .error .runtimeError := by
  unfold MLLL.cov MLLL.factor
  dsimp only
  rw [trilIndices_length, if_neg ho]
  match h : p.off with
  | [] => rfl
  | [v] => rw [h] at h1; simp at h1
  | _ :: _ :: _ => rfl

/-- C100, error-prone case: a single off-diagonal number is silently written everywhere below the
diagonal. -/
theorem C100_single_number_broadcast {D : ℕ} (p : MLLL D) (v : ℝ) (h : p.off = [v]) :
    ∃ L, p.factor = .ok L ∧ (∀ i j, j < i → L i j = v) ∧ (∀ i j, i < j → L i j = 0) ∧
      ∀ i, L i i = 1 / 1000 + exp (p.logDiag i) := by
  by_cases ho : p.off.length = D * (D - 1) / 2
  · obtain ⟨L, h1, h2, h3, h4⟩ := C100_factor p ho
    refine ⟨L, h1, ?_, h2, h3⟩
    intro i j hij
    have h5 := h4 i j hij
    rw [h] at h5
    have h6 := List.mem_of_getElem? h5
    simpa using h6
  · have hfst : ((trilIndices D).map fun ij => (ij, v)).map Prod.fst = trilIndices D := by
      rw [List.map_map]; exact List.map_id _
    unfold MLLL.factor
    dsimp only
    rw [trilIndices_length, if_neg ho, h]
    refine ⟨_, rfl, ?_, ?_, ?_⟩
    · intro i j hij
      rw [of_apply]
      refine writeAll_get _ _ (by rw [hfst]; exact trilIndices_nodup D) i j v ?_
      exact List.mem_map.2 ⟨(i, j), (trilIndices_mem D _).2 hij, rfl⟩
    · intro i j hij
      rw [of_apply, writeAll_not_mem _ _ _ _ (by rw [hfst, trilIndices_mem]; exact not_lt.2 hij.le),
        if_neg hij.ne]
    · intro i
      rw [of_apply, writeAll_not_mem _ _ _ _ (by rw [hfst, trilIndices_mem]; exact lt_irrefl i), if_pos rfl]

theorem tri_floor (D : ℕ) (hD : 0 < D) : ⌊(1/2 : ℝ) * D * (D - 1)⌋₊ = D * (D - 1) / 2 := by
  have : (1/2 : ℝ) * D * (D - 1) = ((D * (D - 1) : ℕ) : ℝ) / ((2 : ℕ) : ℝ) := by
    push_cast [Nat.cast_sub hD]; ring
  rw [this, Nat.floor_div_eq_div]

/-- C100: new latent posteriors.  The requested number of posteriors is created, all with mean zero;
they are valid, with the covariance `(1e-4 + 1/dim) I` (diagonal) or `(1e-3 + 1/dim)² I` (full). -/
theorem C100_new_posteriors (dim nposts : ℕ) (hd : 0 < dim) :
    (∃ p : MLDC dim, newLatentPosteriors dim nposts "diagonal" =
        .ok (List.replicate nposts (.diag p)) ∧ (∀ d, p.mean d = 0) ∧ NDValid dim p.nd ∧
        ∀ d, p.diagCov d = 1 / 10000 + 1 / dim) ∧
    (∃ p : MLLL dim, newLatentPosteriors dim nposts "full" =
        .ok (List.replicate nposts (.full p)) ∧ (∀ d, p.mean d = 0) ∧
        p.cov = .ok ((1 / 1000 + 1 / (dim : ℝ)) ^ 2 • 1)) := by
  have hd' : (0 : ℝ) < dim := by exact_mod_cast hd
  have he : exp (0 - log dim) = 1 / (dim : ℝ) := by
    rw [exp_sub, exp_zero, exp_log hd']
  constructor
  · refine ⟨⟨fun _ => 0, fun _ => 0 - log dim⟩, ?_, fun _ => rfl, (C100_diag_valid _).1, ?_⟩
    · unfold newLatentPosteriors
      rw [if_neg (by decide), if_neg hd.ne', if_neg (by decide)]
    · intro d
      unfold MLDC.diagCov
      rw [he]
  · let p : MLLL dim := ⟨fun _ => 0, fun _ => 0 - log dim,
      List.replicate ⌊(1/2 : ℝ) * dim * (dim - 1)⌋₊ 0⟩
    have hpo : p.off.length = dim * (dim - 1) / 2 := by simp only [p, List.length_replicate, tri_floor dim hd]
    refine ⟨p, ?_, fun _ => rfl, ?_⟩
    · unfold newLatentPosteriors
      rw [if_neg (by decide), if_neg hd.ne', if_pos rfl]
    · obtain ⟨L, h1, h2, h3, h4⟩ := C100_factor p hpo
      have hL : L = (1 / 1000 + 1 / (dim : ℝ)) • (1 : Matrix (Fin dim) (Fin dim) ℝ) := by
        ext i j
        rw [Matrix.smul_apply, one_apply]
        rcases lt_trichotomy i j with h | rfl | h
        · rw [h2 i j h, if_neg h.ne]; simp
        · rw [h3, if_pos rfl]; simp only [p, he, smul_eq_mul, mul_one]
        · have h5 := List.mem_of_getElem? (h4 i j h)
          rw [if_neg h.ne', List.eq_of_mem_replicate h5]; simp
      unfold MLLL.cov
      rw [h1, hL]
      simp [smul_smul, pow_two]

/-- C100, error branches: an unknown type of covariance, and an empty latent space. -/
theorem C100_new_posteriors_errors (nposts : ℕ) :
    (∀ dim c, c ≠ "full" → c ≠ "diagonal" → newLatentPosteriors dim nposts c = .error .unknownCov) ∧
    newLatentPosteriors 0 nposts "full" = .error .valueError ∧
    newLatentPosteriors 0 nposts "diagonal" = .error .valueError := by
  refine ⟨fun dim c h1 h2 => ?_, ?_, ?_⟩
  · unfold newLatentPosteriors; rw [if_pos ⟨h1, h2⟩]
  · unfold newLatentPosteriors; rw [if_neg (by decide), if_pos rfl]
  · unfold newLatentPosteriors; rw [if_neg (by decide), if_pos rfl]

/-- C100: a new transform starts with mean zero; the prior variances are `1e-4 + 1 / strength`, the
posterior ones `1e-4 + 1`; a strength that is not positive raises. -/
theorem C100_new_transform (I O : ℕ) (strength : ℝ) :
    (strength ≤ 0 → Affine.create I O strength = .error .valueError) ∧
    (0 < strength → ∃ t, Affine.create I O strength = .ok t ∧
      (∀ d, t.priorW.mean d = 0 ∧ t.postW.mean d = 0 ∧
        t.priorW.diagCov d = 1 / 10000 + 1 / strength ∧ t.postW.diagCov d = 1 / 10000 + 1) ∧
      ∀ d, t.priorB.mean d = 0 ∧ t.postB.mean d = 0 ∧
        t.priorB.diagCov d = 1 / 10000 + 1 / strength ∧ t.postB.diagCov d = 1 / 10000 + 1) := by
  constructor
  · intro h
    unfold Affine.create
    rw [if_pos h]
  · intro h
    have he : exp (0 + -log strength) = 1 / strength := by
      rw [zero_add, exp_neg, exp_log h, one_div]
    refine ⟨_, by unfold Affine.create; rw [if_neg (not_le.2 h)], ?_, ?_⟩ <;>
    · intro d
      refine ⟨rfl, rfl, ?_, ?_⟩
      · simp only [MLDC.diagCov, he]
      · simp only [MLDC.diagCov, exp_zero]

/-- C100: the dimensions read back from the priors are those of the transform; without outputs,
reading them raises. -/
theorem C100_dimensions (I O : ℕ) : (0 < O → affineDims (I * O) O = .ok (I, O)) ∧
    affineDims (I * 0) 0 = .error .zeroDivision := by
  constructor
  · intro h
    unfold affineDims
    rw [if_neg h.ne', Nat.mul_div_cancel _ h]
  · rfl

example : trilIndices 3 = [(1, 0), (2, 0), (2, 1)] := by decide

example : ∃ S L, (⟨![0, 0], ![0, 1], [5]⟩ : MLLL 2).cov = .ok S ∧
    (⟨![0, 0], ![0, 1], [5]⟩ : MLLL 2).factor = .ok L ∧ S.PosDef ∧ IsCholesky S L ∧
      (∀ i, 1 / 1000 < L i i) ∧ (1 / 1000 : ℝ) ^ (2 * 2) ≤ S.det ∧
      FNValid (⟨![0, 0], S⟩ : FN 2) :=
  C100_full_valid (⟨![0, 0], ![0, 1], [5]⟩ : MLLL 2) rfl

example : ∃ L : Matrix (Fin 2) (Fin 2) ℝ, IsCholesky !![4, 2; 2, 10] L ∧ ∀ i, 1 / 1000 < L i i := by
  refine ⟨!![2, 0; 1, 3], ⟨?_, ?_, ?_⟩, ?_⟩
  · intro i j h; fin_cases i <;> fin_cases j <;> simp_all
  · intro i; fin_cases i <;> simp
  · intro i j _; fin_cases i <;> fin_cases j <;> norm_num [mul_apply, Fin.sum_univ_two]
  · intro i; fin_cases i <;> norm_num

example : (⟨![0, 0, 0], ![0, 0, 0], [1, 2]⟩ : MLLL 3).cov = .error .runtimeError :=
  C100_wrong_number_raises _ (by decide) (by decide)

end Verif.Props
