import Verif.Spec.Create
import Verif.Props.VBTrain

/-!
# C91-C94: creation of models
-/

namespace Verif.Props

open Matrix Verif.VB Verif.Dists Verif.DistSpec Verif.Mixture

variable {D : ℕ}

theorem fullCov_eq (cov : CovArg D) (h : cov.HasDim) : fullCov cov = .mat (requested cov) := by
  cases cov with
  | scalar x => exact h.elim
  | one x =>
    show CovArg.mat _ = CovArg.mat _
    congr 1
    ext i j
    simp [requested, Matrix.one_apply]
  | vec v =>
    show CovArg.mat _ = CovArg.mat _
    congr 1
  | mat M => rfl

theorem isSubstr_self (s : String) : isSubstr s s = true := by
  unfold isSubstr
  rw [List.any_eq_true]
  exact ⟨s.toList, (List.mem_tails _ _).2 (List.suffix_refl _), by simp⟩

theorem foldl_max_spec (l : List ℝ) (x : ℝ) :
    l.foldl max x ∈ x :: l ∧ ∀ y ∈ x :: l, y ≤ l.foldl max x := by
  induction l generalizing x with
  | nil => simp
  | cons a l ih =>
    obtain ⟨h1, h2⟩ := ih (max x a)
    rw [List.foldl_cons]
    refine ⟨?_, ?_⟩
    · rcases List.mem_cons.1 h1 with h | h
      · rw [h]; rcases max_choice x a with e | e <;> rw [e] <;> simp
      · simp [h]
    · intro y hy
      have h0 := h2 _ (List.mem_cons_self ..)
      rcases List.mem_cons.1 hy with rfl | hy
      · exact (le_max_left _ _).trans h0
      · rcases List.mem_cons.1 hy with rfl | hy
        · exact (le_max_right _ _).trans h0
        · exact h2 y (List.mem_cons_of_mem _ hy)

theorem vecMax_spec (hD : 1 ≤ D) (v : Fin D → ℝ) : ∃ i, vecMax v = .ok (v i) ∧ ∀ j, v j ≤ v i := by
  obtain ⟨D, rfl⟩ : ∃ D', D = D' + 1 := ⟨D - 1, by omega⟩
  obtain ⟨h1, h2⟩ := foldl_max_spec (List.ofFn fun i : Fin D => v i.succ) (v 0)
  have e : vecMax v = .ok ((List.ofFn fun i : Fin D => v i.succ).foldl max (v 0)) := by
    unfold vecMax
    rw [List.ofFn_succ]
  rw [← List.ofFn_succ (f := v)] at h1 h2
  obtain ⟨i, hi⟩ := (List.mem_ofFn' _ _).1 h1
  exact ⟨i, by rw [e, ← hi], fun j => hi ▸ h2 _ ((List.mem_ofFn' _ _).2 ⟨j, rfl⟩)⟩

/-! ## C91: `Normal.create` -/

/-- C91: `Normal.create(mean, cov, strength, 'full')` has the requested mean and covariance, the prior
and the posterior are the same valid distribution. -/
theorem C91_full (hD : 1 ≤ D) (mean : Fin D → ℝ) (cov : CovArg D) (hc : cov.HasDim)
    (hp : (requested cov).PosDef) (s : ℝ) (hs : 0 < s) :
    ∃ p : CParam (Σ D : ℕ, NW D), normalCreate mean cov s "full" = .ok (.full p) ∧
      normalMean (.full p) = List.ofFn mean ∧ normalCov (.full p) = .ok ⟨D, requested cov⟩ ∧
      p.prior = p.post ∧ ParamValid (NWValidD D) p := by
  have hd : (requested cov).det ≠ 0 := hp.det_pos.ne'
  have hdof : 0 < s + D - 1 := by
    have : (1 : ℝ) ≤ D := by exact_mod_cast hD
    linarith
  have hv : NWValidD D ⟨D, ⟨mean, s, (1 / (s + D - 1)) • (requested cov)⁻¹, s + D - 1⟩⟩ :=
    ⟨rfl, hs, hp.inv.smul (by positivity), by show (D : ℝ) - 1 < s + D - 1; linarith⟩
  refine ⟨⟨⟨D, ⟨mean, s, (1 / (s + D - 1)) • (requested cov)⁻¹, s + D - 1⟩⟩,
    ⟨D, ⟨mean, s, (1 / (s + D - 1)) • (requested cov)⁻¹, s + D - 1⟩⟩⟩, ?_, rfl, ?_, rfl, hv, hv⟩
  · unfold normalCreate
    rw [if_neg (by simp [isSubstr_self]), if_pos rfl]
    unfold normalFull covInverse tinverse
    rw [fullCov_eq cov hc]
    dsimp only
    rw [if_neg hd]
    rfl
  · have e : (s + D - 1) • ((1 / (s + D - 1)) • (requested cov)⁻¹) = (requested cov)⁻¹ := by
      rw [smul_smul, mul_one_div_cancel hdof.ne', one_smul]
    have hd' : ((requested cov)⁻¹).det ≠ 0 := hp.inv.det_pos.ne'
    unfold normalCov nwExpValue
    dsimp only
    rw [e, tinverse, if_neg hd', Matrix.nonsing_inv_nonsing_inv _ (isUnit_iff_ne_zero.2 hd)]
    rfl

/-- C91: diagonal covariance: the variances are those of the request, the rest of the matrix is
dropped. -/
theorem C91_diagonal (hD : 1 ≤ D) (mean : Fin D → ℝ) (cov : CovArg D) (hc : cov.HasDim)
    (hp : ∀ i, 0 < requested cov i i) (s : ℝ) (hs : 0 < s) :
    ∃ (p : CParam (NG ℝ)) (C : Matrix (Fin D) (Fin D) ℝ),
      normalCreate mean cov s "diagonal" = .ok (.diagonal p) ∧
      normalMean (.diagonal p) = List.ofFn mean ∧ normalCov (.diagonal p) = .ok ⟨D, C⟩ ∧
      (∀ i j, C i j = if i = j then requested cov i i else 0) ∧
      p.prior = p.post ∧ ParamValid (NGValid D) p := by
  have hv : NGValid D (⟨List.ofFn mean, s, s, List.ofFn fun i => s * requested cov i i⟩ : NG ℝ) := by
    refine ⟨by simp, by simp, hs, hs, ?_⟩
    intro x hx
    obtain ⟨i, rfl⟩ := (List.mem_ofFn' _ _).1 hx
    exact mul_pos hs (hp i)
  refine ⟨⟨⟨List.ofFn mean, s, s, List.ofFn fun i => s * requested cov i i⟩,
    ⟨List.ofFn mean, s, s, List.ofFn fun i => s * requested cov i i⟩⟩,
    Matrix.diagonal fun i => requested cov i i, ?_, rfl, ?_, ?_, rfl, hv, hv⟩
  · unfold normalCreate
    rw [if_neg (by simp [isSubstr_self]), if_neg (by decide), if_pos rfl]
    unfold normalDiag
    rw [fullCov_eq cov hc]
    rfl
  · have e : (List.ofFn fun i => s * requested cov i i).map (fun r => s / r) =
        List.ofFn fun i => 1 / requested cov i i := by
      rw [List.map_ofFn]
      congr 1
      funext i
      have := (hp i).ne'
      simp only [Function.comp]
      field_simp
    unfold normalCov
    dsimp only
    rw [e]
    have key : ∀ (l : List ℝ) (h : l.length = D) (f : Fin D → ℝ), (∀ i : Fin D, 1 / l.get (i.cast h.symm) = f i) →
        (Except.ok ⟨l.length, Matrix.diagonal fun i => 1 / l.get i⟩ :
          Except Err (Σ n : ℕ, Matrix (Fin n) (Fin n) ℝ)) = .ok ⟨D, Matrix.diagonal f⟩ := by
      rintro l rfl f hf
      congr 3
      funext i
      exact hf i
    split_ifs with h
    · exact key _ (by simp) _ fun i => by simp
    · have h1 : D = 1 := by simp at h; omega
      subst h1
      have h2 : (List.ofFn mean).length = 1 := by simp
      have key2 : ∀ (n : ℕ) (h : n = 1) (x : ℝ) (f : Fin 1 → ℝ), x = f 0 →
          (Except.ok ⟨n, x • 1⟩ : Except Err (Σ n : ℕ, Matrix (Fin n) (Fin n) ℝ)) =
            .ok ⟨1, Matrix.diagonal f⟩ := by
        rintro n rfl x f rfl
        congr 2
        ext i j
        fin_cases i; fin_cases j
        simp
      exact key2 _ h2 _ _ (by simp)
  · intro i j
    rw [Matrix.diagonal_apply]

/-- C91: isotropic covariance: the largest variance of the request in every direction. -/
theorem C91_isotropic (hD : 1 ≤ D) (mean : Fin D → ℝ) (cov : CovArg D) (hc : cov.HasDim)
    (hp : ∀ i, 0 < requested cov i i) (s : ℝ) (hs : 0 < s) :
    ∃ (p : CParam (ING ℝ)) (C : Matrix (Fin D) (Fin D) ℝ) (k : Fin D),
      normalCreate mean cov s "isotropic" = .ok (.isotropic p) ∧
      normalMean (.isotropic p) = List.ofFn mean ∧ normalCov (.isotropic p) = .ok ⟨D, C⟩ ∧
      (∀ i, requested cov i i ≤ requested cov k k) ∧
      (∀ i j, C i j = if i = j then requested cov k k else 0) ∧
      p.prior = p.post ∧ ParamValid (INGValid D) p := by
  obtain ⟨k, ek, hk⟩ := vecMax_spec hD fun i => requested cov i i
  have hv : INGValid D (⟨List.ofFn mean, s, s, s * requested cov k k⟩ : ING ℝ) :=
    ⟨by simp, hs, hs, mul_pos hs (hp k)⟩
  refine ⟨⟨⟨List.ofFn mean, s, s, s * requested cov k k⟩, ⟨List.ofFn mean, s, s, s * requested cov k k⟩⟩,
    requested cov k k • 1, k, ?_, rfl, ?_, hk, ?_, rfl, hv, hv⟩
  · unfold normalCreate
    rw [if_neg (by simp [isSubstr_self]), if_neg (by decide), if_neg (by decide), if_pos rfl]
    unfold normalIso
    rw [fullCov_eq cov hc]
    dsimp only [covDiag]
    rw [ok_bind, ek]
    rfl
  · have e : 1 / (s / (s * requested cov k k)) = requested cov k k := by
      have := (hp k).ne'
      field_simp
    unfold normalCov
    dsimp only
    rw [e]
    have key : ∀ (n : ℕ), n = D → ∀ x : ℝ,
        (Except.ok ⟨n, x • 1⟩ : Except Err (Σ n : ℕ, Matrix (Fin n) (Fin n) ℝ)) = .ok ⟨D, x • 1⟩ := by
      rintro n rfl x; rfl
    exact key _ (by simp) _
  · intro i j
    simp [Matrix.one_apply]

example : (requested (.one 2 : CovArg 3)).PosDef ∧ (CovArg.one 2 : CovArg 3).HasDim ∧
    ∀ i, 0 < requested (.vec ![1, 5] : CovArg 2) i i := by
  refine ⟨?_, trivial, ?_⟩
  · have : requested (.one 2 : CovArg 3) = (2 : ℝ) • 1 := by
      ext i j; simp [requested, Matrix.one_apply]
    rw [this]
    exact Matrix.PosDef.one.smul (by norm_num)
  · intro i; fin_cases i <;> simp [requested]

/-- C91 does not hold for a tensor without dimension: the documented scalar raises, whatever the type
of covariance. -/
theorem C91_scalar_fails (mean : Fin D → ℝ) (x s : ℝ) (t : String)
    (ht : t = "full" ∨ t = "diagonal" ∨ t = "isotropic") :
    normalCreate mean (.scalar x) s t = .error .runtimeError := by
  unfold normalCreate
  rw [if_neg (by simp [isSubstr_self])]
  rcases ht with rfl | rfl | rfl
  · rw [if_pos rfl]; rfl
  · rw [if_neg (by decide), if_pos rfl]; rfl
  · rw [if_neg (by decide), if_neg (by decide), if_pos rfl]; rfl

example : ∃ (cov : CovArg 1) (mean : Fin 1 → ℝ), (requested cov).PosDef ∧
    normalCreate mean cov 1 "full" = .error .runtimeError :=
  ⟨.scalar 1, 0, by
    have : requested (.scalar 1 : CovArg 1) = 1 := by
      ext i j; simp [requested, Matrix.one_apply]
    rw [this]; exact Matrix.PosDef.one, C91_scalar_fails _ _ _ _ (by simp)⟩

/-- C91: an unknown type of covariance raises `KeyError`; the dedicated exception is never raised. -/
theorem C91_unknown_type (mean : Fin D → ℝ) (cov : CovArg D) (s : ℝ) (t : String) :
    (t ≠ "full" ∧ t ≠ "diagonal" ∧ t ≠ "isotropic" → normalCreate mean cov s t = .error .keyError) ∧
    normalCreate mean cov s t ≠ .error .unknownCov := by
  have hk : t ≠ "full" ∧ t ≠ "diagonal" ∧ t ≠ "isotropic" →
      normalCreate mean cov s t = .error .keyError := by
    rintro ⟨h1, h2, h3⟩
    unfold normalCreate
    rw [if_neg (by simp [isSubstr_self]), if_neg h1, if_neg h2, if_neg h3]
  refine ⟨hk, ?_⟩
  intro h
  by_cases h1 : t = "full"
  · subst h1
    unfold normalCreate at h
    rw [if_neg (by simp [isSubstr_self]), if_pos rfl] at h
    unfold normalFull covInverse tinverse at h
    cases e : fullCov cov with
    | mat M =>
      rw [e] at h; dsimp only at h
      split_ifs at h <;> exact nomatch h
    | _ => rw [e] at h; exact nomatch h
  by_cases h2 : t = "diagonal"
  · subst h2
    unfold normalCreate at h
    rw [if_neg (by simp [isSubstr_self]), if_neg (by decide), if_pos rfl] at h
    unfold normalDiag at h
    cases e : fullCov cov <;> rw [e] at h <;> exact nomatch h
  by_cases h3 : t = "isotropic"
  · subst h3
    unfold normalCreate at h
    rw [if_neg (by simp [isSubstr_self]), if_neg (by decide), if_neg (by decide), if_pos rfl] at h
    unfold normalIso at h
    cases e : fullCov cov with
    | mat M =>
      rw [e] at h
      dsimp only [covDiag] at h
      rw [ok_bind] at h
      unfold vecMax at h
      cases e2 : List.ofFn fun i => M i i <;> rw [e2] at h <;> exact nomatch h
    | _ => rw [e] at h; exact nomatch h
  · rw [hk ⟨h1, h2, h3⟩] at h
    exact nomatch h

example : normalCreate (0 : Fin 1 → ℝ) (.one 1) 1 "diag" = .error .keyError :=
  (C91_unknown_type _ _ _ _).1 (by decide)

/-! ## C92: `NormalSet.create` -/

/-- C92: whatever the random numbers and the standard deviation of the noise, the set is valid; the
prior of every member has the requested mean, the posterior the mean plus its noise. -/
theorem C92_full (hD : 1 ≤ D) {M : ℕ} (mean : Fin D → ℝ) (cov : CovArg D) (hc : cov.HasDim)
    (hp : (requested cov).PosDef) (s : ℝ) (hs : 0 < s) (noise : ℝ) (randn : Fin M → Fin D → ℝ) :
    ∃ st : Fin M → CParam (Σ D : ℕ, NW D),
      normalSetCreate mean cov s noise "full" randn = .ok (.full st) ∧ SetValid (NWValidD D) st ∧
      ∀ m, normalMean (.full ⟨(st m).prior, (st m).prior⟩) = List.ofFn mean ∧
        normalMean (.full (st m)) =
          List.ofFn (fun i => mean i + randn m i * noise * √(requested cov i i)) ∧
        normalCov (.full (st m)) = .ok ⟨D, requested cov⟩ := by
  have hd : (requested cov).det ≠ 0 := hp.det_pos.ne'
  have hdof : 0 < s + D - 1 := by
    have : (1 : ℝ) ≤ D := by exact_mod_cast hD
    linarith
  have hv : ∀ μ : Fin D → ℝ,
      NWValidD D ⟨D, ⟨μ, s, (1 / (s + D - 1)) • (requested cov)⁻¹, s + D - 1⟩⟩ := fun μ =>
    ⟨rfl, hs, hp.inv.smul (by positivity), by show (D : ℝ) - 1 < s + D - 1; linarith⟩
  refine ⟨fun m => ⟨⟨D, ⟨mean, s, (1 / (s + D - 1)) • (requested cov)⁻¹, s + D - 1⟩⟩,
    ⟨D, ⟨mean + setNoise randn noise (fun i => requested cov i i) m, s,
      (1 / (s + D - 1)) • (requested cov)⁻¹, s + D - 1⟩⟩⟩, ?_, fun m => ⟨hv _, hv _⟩,
    fun m => ⟨rfl, rfl, ?_⟩⟩
  · unfold normalSetCreate
    rw [if_neg (by simp [isSubstr_self]), if_pos rfl]
    unfold normalSetFull
    rw [fullCov_eq cov hc]
    dsimp only [covDiag, covInverse]
    rw [ok_bind, tinverse, if_neg hd]
    rfl
  · have e : (s + D - 1) • ((1 / (s + D - 1)) • (requested cov)⁻¹) = (requested cov)⁻¹ := by
      rw [smul_smul, mul_one_div_cancel hdof.ne', one_smul]
    have hd' : ((requested cov)⁻¹).det ≠ 0 := hp.inv.det_pos.ne'
    unfold normalCov nwExpValue
    dsimp only
    rw [e, tinverse, if_neg hd', Matrix.nonsing_inv_nonsing_inv _ (isUnit_iff_ne_zero.2 hd)]
    rfl

/-- C92: diagonal covariance. -/
theorem C92_diagonal {M : ℕ} (mean : Fin D → ℝ) (cov : CovArg D) (hc : cov.HasDim)
    (hp : ∀ i, 0 < requested cov i i) (s : ℝ) (hs : 0 < s) (noise : ℝ) (randn : Fin M → Fin D → ℝ) :
    ∃ st : Fin M → CParam (NG ℝ),
      normalSetCreate mean cov s noise "diagonal" randn = .ok (.diagonal st) ∧ SetValid (NGValid D) st ∧
      ∀ m, (st m).prior.mean = List.ofFn mean ∧
        (st m).post.mean = List.ofFn (fun i => mean i + randn m i * noise * √(requested cov i i)) ∧
        (st m).post.rates.map (fun r => 1 / ((st m).post.shape / r)) =
          List.ofFn fun i => requested cov i i := by
  have hv : ∀ μ : Fin D → ℝ,
      NGValid D (⟨List.ofFn μ, s, s, List.ofFn fun i => s * requested cov i i⟩ : NG ℝ) := by
    intro μ
    refine ⟨by simp, by simp, hs, hs, ?_⟩
    intro x hx
    obtain ⟨i, rfl⟩ := (List.mem_ofFn' _ _).1 hx
    exact mul_pos hs (hp i)
  refine ⟨fun m => ⟨⟨List.ofFn mean, s, s, List.ofFn fun i => s * requested cov i i⟩,
    ⟨List.ofFn (mean + setNoise randn noise (fun i => requested cov i i) m), s, s,
      List.ofFn fun i => s * requested cov i i⟩⟩, ?_, fun m => ⟨hv _, hv _⟩, fun m => ⟨rfl, rfl, ?_⟩⟩
  · unfold normalSetCreate
    rw [if_neg (by simp [isSubstr_self]), if_neg (by decide), if_pos rfl]
    unfold normalSetDiag
    rw [fullCov_eq cov hc]
    rfl
  · dsimp only
    rw [List.map_ofFn]
    congr 1
    funext i
    have := (hp i).ne'
    simp only [Function.comp]
    field_simp

/-- C92: isotropic covariance. -/
theorem C92_isotropic (hD : 1 ≤ D) {M : ℕ} (mean : Fin D → ℝ) (cov : CovArg D) (hc : cov.HasDim)
    (hp : ∀ i, 0 < requested cov i i) (s : ℝ) (hs : 0 < s) (noise : ℝ) (randn : Fin M → Fin D → ℝ) :
    ∃ (st : Fin M → CParam (ING ℝ)) (k : Fin D),
      normalSetCreate mean cov s noise "isotropic" randn = .ok (.isotropic st) ∧
      SetValid (INGValid D) st ∧ (∀ i, requested cov i i ≤ requested cov k k) ∧
      ∀ m, (st m).prior.mean = List.ofFn mean ∧
        (st m).post.mean = List.ofFn (fun i => mean i + randn m i * noise * √(requested cov i i)) ∧
        1 / ((st m).post.shape / (st m).post.rate) = requested cov k k := by
  obtain ⟨k, ek, hk⟩ := vecMax_spec hD fun i => requested cov i i
  have hv : ∀ μ : Fin D → ℝ, INGValid D (⟨List.ofFn μ, s, s, s * requested cov k k⟩ : ING ℝ) :=
    fun μ => ⟨by simp, hs, hs, mul_pos hs (hp k)⟩
  refine ⟨fun m => ⟨⟨List.ofFn mean, s, s, s * requested cov k k⟩,
    ⟨List.ofFn (mean + setNoise randn noise (fun i => requested cov i i) m), s, s,
      s * requested cov k k⟩⟩, k, ?_, fun m => ⟨hv _, hv _⟩, hk, fun m => ⟨rfl, rfl, ?_⟩⟩
  · unfold normalSetCreate
    rw [if_neg (by simp [isSubstr_self]), if_neg (by decide), if_neg (by decide), if_pos rfl]
    unfold normalSetIso
    rw [fullCov_eq cov hc]
    dsimp only [covDiag]
    rw [ok_bind, ek]
    rfl
  · have := (hp k).ne'
    dsimp only
    field_simp

example : ∃ st : Fin 2 → CParam (NG ℝ),
    normalSetCreate ![0, 1] (.vec ![1, 4]) 1 1 "diagonal" ![![1, 2], ![-1, 0]] = .ok (.diagonal st) ∧
    (st 0).post.mean = [1, 5] ∧ (st 1).post.mean = [-1, 1] := by
  obtain ⟨st, h, _, hm⟩ := C92_diagonal (M := 2) ![0, 1] (.vec ![1, 4] : CovArg 2) trivial
    (by intro i; fin_cases i <;> simp [requested]) 1 one_pos 1 ![![1, 2], ![-1, 0]]
  have h4 : √(4 : ℝ) = 2 := by
    rw [show (4 : ℝ) = 2 ^ 2 by norm_num]; exact Real.sqrt_sq (by norm_num)
  refine ⟨st, h, ?_, ?_⟩
  · rw [(hm 0).2.1]; simp [requested, List.ofFn_succ, h4]; norm_num
  · rw [(hm 1).2.1]; simp [requested, List.ofFn_succ]

/-- C92, error branch: a tensor without dimension. -/
theorem C92_scalar_fails {M : ℕ} (mean : Fin D → ℝ) (x s noise : ℝ) (randn : Fin M → Fin D → ℝ)
    (t : String) (ht : t = "full" ∨ t = "diagonal" ∨ t = "isotropic") :
    normalSetCreate mean (.scalar x) s noise t randn = .error .runtimeError := by
  unfold normalSetCreate
  rw [if_neg (by simp [isSubstr_self])]
  rcases ht with rfl | rfl | rfl
  · rw [if_pos rfl]; rfl
  · rw [if_neg (by decide), if_pos rfl]; rfl
  · rw [if_neg (by decide), if_neg (by decide), if_pos rfl]; rfl

example : normalSetCreate (M := 3) (0 : Fin 2 → ℝ) (.scalar 1) 1 1 "diagonal" (fun _ _ => 0) =
    .error .runtimeError := C92_scalar_fails _ _ _ _ _ _ (by simp)

/-! ## C93: identical components stay identical -/

theorem seqFin_inv {α : Type} : ∀ {M : ℕ} (f : Fin M → Except Err α) (r : Fin M → α),
    seqFin f = .ok r → ∀ m, f m = .ok (r m)
  | 0, _, _, _, m => m.elim0
  | M + 1, f, r, h, m => by
    unfold seqFin at h
    cases e0 : f 0 with
    | error e => rw [e0] at h; exact nomatch h
    | ok a =>
      cases e1 : seqFin fun i => f i.succ with
      | error e => rw [e0, e1] at h; exact nomatch h
      | ok r' =>
        rw [e0, e1] at h
        obtain rfl := Except.ok.inj h
        refine Fin.cases e0 (fun i => ?_) m
        exact seqFin_inv _ _ e1 i

theorem bind_inv {α β : Type} {x : Except Err α} {f : α → Except Err β} {b : β}
    (h : (x >>= f) = .ok b) : ∃ a, x = .ok a ∧ f a = .ok b := by
  cases x with
  | error e => exact nomatch h
  | ok a => exact ⟨a, rfl, h⟩

theorem lwOf_replicate {K : ℕ} (b : ℝ) (k k' : Fin K) :
    lwOf K (List.replicate K b) k = lwOf K (List.replicate K b) k' := by
  obtain ⟨K, rfl⟩ : ∃ K', K = K' + 1 := ⟨K - 1, by have := k.2; omega⟩
  have e : List.replicate (K + 1) b = List.ofFn fun _ : Fin (K + 1) => b := by
    rw [List.ofFn_const]
  unfold lwOf
  rw [e, catExpLlh_eq, catExpLlh_eq]
  simp

theorem mixLocal_const {K : ℕ} (lw llh : Fin K → ℝ) (h1 : ∀ k k', lw k = lw k')
    (h2 : ∀ k k', llh k = llh k') (k : Fin K) : (mixLocal lw llh).resps k = 1 / K := by
  have hK : (0 : ℝ) < K := by exact_mod_cast (Nat.zero_le _).trans_lt k.2
  have hs : ∑ j, Real.exp (llh j + lw j) = K * Real.exp (llh k + lw k) := by
    rw [Finset.sum_congr rfl fun j _ => by rw [h1 j k, h2 j k]]
    simp
  show Real.exp (llh k + lw k - Real.log (∑ j, Real.exp (llh j + lw j))) = _
  rw [hs, Real.exp_sub, Real.exp_log (by positivity)]
  field_simp

/-- In an indistinct mixture every component has the same responsibility. -/
theorem mixOut_indistinct {X P : Type} {fam : Family X P} {K : ℕ} (st : MixState (familySet fam K))
    (h : Indistinct st) (x : X) (o : LocalOut K) (e : mixOut (familySet fam K) st x = .ok o)
    (k : Fin K) : o.resps k = 1 / K := by
  obtain ⟨hc, _, b, hb⟩ := h
  unfold mixOut at e
  obtain ⟨lw, e1, e⟩ := bind_inv e
  obtain ⟨llh, e2, e⟩ := bind_inv e
  obtain rfl := Except.ok.inj e
  rw [hb, logWeights_eq _ (by simp)] at e1
  obtain rfl := Except.ok.inj e1
  refine mixLocal_const _ _ (lwOf_replicate b) ?_ k
  intro k k'
  have a1 := seqFin_inv _ _ e2 k
  have a2 := seqFin_inv _ _ e2 k'
  rw [hc k k'] at a1
  exact Except.ok.inj (a1.symm.trans a2)

theorem wsum_const {K : ℕ} (l : List ℝ) (c : ℝ) :
    ∃ d, wsum K (l.map fun r => (r, List.replicate K c)) = List.replicate K d := by
  induction l with
  | nil => exact ⟨0, rfl⟩
  | cons r l ih =>
    obtain ⟨d, h⟩ := ih
    refine ⟨r * c + d, ?_⟩
    rw [List.map_cons, wsum, h]
    simp [vadd, vsmul]

theorem mixStep_indistinct {X P : Type} {fam : Family X P} {K : ℕ} (hK : 1 ≤ K)
    (st st' : MixState (familySet fam K)) (h : Indistinct st) (data : List X) (datasize : ℤ) (l : ℝ)
    (e : mixStep (familySet fam K) st data datasize l = .ok st') : Indistinct st' := by
  have hres := mixOut_indistinct st h
  obtain ⟨hc, ⟨a, ha⟩, b, hb⟩ := h
  unfold mixStep at e
  obtain ⟨scale, e1, e⟩ := bind_inv e
  obtain ⟨outs, e2, e⟩ := bind_inv e
  obtain ⟨w, e3, e⟩ := bind_inv e
  obtain ⟨s, e4, e⟩ := bind_inv e
  obtain rfl := Except.ok.inj e
  have hall := (mapM_ok_iff _ _ _).1 e2
  have hlen := hall.length_eq
  have hget : ∀ i (h1 : i < data.length) (h2 : i < outs.length),
      mixOut (familySet fam K) st data[i] = .ok outs[i] := by
    intro i h1 h2
    simpa using hall.get h1 h2
  have hr : ∀ o ∈ outs, List.ofFn o.resps = List.replicate K (1 / (K : ℝ)) := by
    intro o ho
    obtain ⟨i, hi, rfl⟩ := List.getElem_of_mem ho
    have hx := hget i (by omega) hi
    rw [← List.ofFn_const]
    congr 1
    funext k
    exact hres _ _ hx k
  refine ⟨?_, ?_, ?_⟩
  · intro m m'
    have a1 := seqFin_inv _ _ e4 m
    have a2 := seqFin_inv _ _ e4 m'
    have hw : (List.zipWith (fun x o => (x, LocalOut.resps o)) data outs).map
          (fun r => (r.2 m, fam.stats r.1)) =
        (List.zipWith (fun x o => (x, LocalOut.resps o)) data outs).map
          (fun r => (r.2 m', fam.stats r.1)) := by
      apply List.map_congr_left
      intro r hr'
      obtain ⟨i, hi, rfl⟩ := List.getElem_of_mem hr'
      have hi1 : i < data.length := by simp at hi; omega
      have hi2 : i < outs.length := by simp at hi; omega
      have hx := hget i hi1 hi2
      simp only [List.getElem_zipWith]
      rw [hres _ _ hx m, hres _ _ hx m']
    rw [hc m m', hw] at a1
    exact Except.ok.inj (a1.symm.trans a2)
  · refine ⟨a, ?_⟩
    unfold Family.update at e3
    obtain ⟨n0, f1, e3⟩ := bind_inv e3
    obtain ⟨n1, f2, e3⟩ := bind_inv e3
    split_ifs at e3
    obtain ⟨p, f3, e3⟩ := bind_inv e3
    obtain rfl := Except.ok.inj e3
    exact ha
  · unfold Family.update at e3
    obtain ⟨n0, f1, e3⟩ := bind_inv e3
    obtain ⟨n1, f2, e3⟩ := bind_inv e3
    obtain rfl := Except.ok.inj f1
    obtain rfl := Except.ok.inj f2
    split_ifs at e3
    obtain ⟨p, f3, e3⟩ := bind_inv e3
    obtain rfl := Except.ok.inj e3
    have hstats : vsmul scale (mixCatStats (outs.map fun o => o.resps)) =
        wsum K (((outs.map fun _ => scale).map fun r => (r, List.replicate K (1 / (K : ℝ)))).map
          fun r => (r.1, catStats r.2)) := by
      unfold mixCatStats
      rw [vsmul_wsum]
      simp only [List.map_map]
      congr 1
      apply List.map_congr_left
      intro o ho
      simp [hr o ho]
    have f4 : natGradUpdate dirNatural dirFromNatural st.weights.prior st.weights.post
        (vsmul scale (mixCatStats (outs.map fun o => o.resps))) l = .ok p := f3
    obtain ⟨d, hd⟩ := wsum_const (K := K) (outs.map fun _ => scale) (1 / (K : ℝ))
    rw [hstats, dir_update_eq K hK _ _ _ _ (by simp [ha]) (by simp [hb])
      (by intro r hr'; obtain ⟨_, _, rfl⟩ := List.mem_map.1 hr'; simp), hd, ha, hb] at f4
    refine ⟨(1 - l) * (b - 1) + l * (a - 1 + d) + 1, ?_⟩
    rw [← Except.ok.inj f4]
    simp [vadd, vsmul]

/-- C93: if all components of a mixture are equal and the weights are uniform, no training ever tells
the components apart: whatever the data, the scaling, the number of steps and the learning rates, the
components stay equal, the weights uniform, and every frame is shared equally. -/
theorem C93_symmetry_kept {X P : Type} {fam : Family X P} {K : ℕ} (hK : 1 ≤ K)
    (st st' : MixState (familySet fam K)) (h : Indistinct st) (data : List X) (datasize : ℤ)
    (ls : List ℝ) (e : mixTrain (familySet fam K) data datasize st ls = .ok st') :
    Indistinct st' ∧ ∀ x o, mixOut (familySet fam K) st' x = .ok o → ∀ k, o.resps k = 1 / K := by
  suffices Indistinct st' from ⟨this, fun x o => mixOut_indistinct st' this x o⟩
  induction ls generalizing st with
  | nil => obtain rfl := Except.ok.inj e; exact h
  | cons l ls ih =>
    rw [mixTrain] at e
    cases e1 : mixStep (familySet fam K) st data datasize l with
    | error err => rw [e1] at e; exact nomatch e
    | ok s1 =>
      rw [e1] at e
      exact ih s1 (mixStep_indistinct hK st s1 h data datasize l e1) e

/-- C93: `Mixture.create(NormalSet.create(..., noise_std=0))` is such a mixture. -/
theorem C93_created_without_noise {K : ℕ} (mean : Fin D → ℝ) (cov : CovArg D) (s t : ℝ)
    (randn : Fin K → Fin D → ℝ) (st : Fin K → CParam (NG ℝ))
    (e : normalSetCreate mean cov s 0 "diagonal" randn = .ok (.diagonal st)) :
    Indistinct (mixCreate (familySet (ngFam D) K) st t) := by
  refine ⟨?_, ⟨1 / (K : ℝ) * t, by simp [mixCreate, catCreate]⟩,
    ⟨1 / (K : ℝ) * t, by simp [mixCreate, catCreate]⟩⟩
  unfold normalSetCreate at e
  rw [if_neg (by simp [isSubstr_self]), if_neg (by decide), if_pos rfl] at e
  obtain ⟨p, e1, e⟩ := bind_inv e
  obtain rfl := NormalSetParam.diagonal.inj (Except.ok.inj e)
  unfold normalSetDiag at e1
  obtain ⟨diag, _, e1⟩ := bind_inv e1
  obtain rfl := Except.ok.inj e1
  intro m m'
  have : setNoise randn 0 diag m = setNoise randn 0 diag m' := by
    funext i; simp [setNoise]
  show (⟨_, _⟩ : CParam (NG ℝ)) = ⟨_, _⟩
  rw [this]

/-- C93: the same for isotropic covariance. -/
theorem C93_created_without_noise_isotropic {K : ℕ} (mean : Fin D → ℝ) (cov : CovArg D) (s t : ℝ)
    (randn : Fin K → Fin D → ℝ) (st : Fin K → CParam (ING ℝ))
    (e : normalSetCreate mean cov s 0 "isotropic" randn = .ok (.isotropic st)) :
    Indistinct (mixCreate (familySet (ingFam D) K) st t) := by
  refine ⟨?_, ⟨1 / (K : ℝ) * t, by simp [mixCreate, catCreate]⟩,
    ⟨1 / (K : ℝ) * t, by simp [mixCreate, catCreate]⟩⟩
  unfold normalSetCreate at e
  rw [if_neg (by simp [isSubstr_self]), if_neg (by decide), if_neg (by decide), if_pos rfl] at e
  obtain ⟨p, e1, e⟩ := bind_inv e
  obtain rfl := NormalSetParam.isotropic.inj (Except.ok.inj e)
  unfold normalSetIso at e1
  obtain ⟨diag, _, e1⟩ := bind_inv e1
  obtain ⟨v, _, e1⟩ := bind_inv e1
  obtain rfl := Except.ok.inj e1
  intro m m'
  have : setNoise randn 0 diag m = setNoise randn 0 diag m' := by
    funext i; simp [setNoise]
  show (⟨_, _⟩ : CParam (ING ℝ)) = ⟨_, _⟩
  rw [this]

/-- C93: the same for full covariance. -/
theorem C93_created_without_noise_full {K : ℕ} (mean : Fin D → ℝ) (cov : CovArg D) (s t : ℝ)
    (randn : Fin K → Fin D → ℝ) (st : Fin K → CParam (Σ D : ℕ, NW D))
    (e : normalSetCreate mean cov s 0 "full" randn = .ok (.full st)) :
    Indistinct (mixCreate (familySet (nwFam D) K) st t) := by
  refine ⟨?_, ⟨1 / (K : ℝ) * t, by simp [mixCreate, catCreate]⟩,
    ⟨1 / (K : ℝ) * t, by simp [mixCreate, catCreate]⟩⟩
  unfold normalSetCreate at e
  rw [if_neg (by simp [isSubstr_self]), if_pos rfl] at e
  obtain ⟨p, e1, e⟩ := bind_inv e
  obtain rfl := NormalSetParam.full.inj (Except.ok.inj e)
  unfold normalSetFull at e1
  obtain ⟨diag, _, e1⟩ := bind_inv e1
  obtain ⟨v, _, e1⟩ := bind_inv e1
  obtain rfl := Except.ok.inj e1
  intro m m'
  have : setNoise randn 0 diag m = setNoise randn 0 diag m' := by
    funext i; simp [setNoise]
  show (⟨_, _⟩ : CParam (Σ D : ℕ, NW D)) = ⟨_, _⟩
  rw [this]

/-! ## C94: creation followed by training -/

/-- C94: the weights of `Mixture.create` are valid. -/
theorem C94_weights {X : Type} {K : ℕ} (inner : SetModel X K) (comps : inner.State) (t : ℝ) (ht : 0 < t) :
    ParamValid (DirValid K) (mixCreate inner comps t).weights := by
  have h : DirValid K ((List.replicate K (1 / (K : ℝ))).map (· * t)) := by
    refine ⟨by simp, ?_⟩
    intro x hx
    obtain ⟨y, hy, rfl⟩ := List.mem_map.1 hx
    obtain ⟨hK, rfl⟩ := List.mem_replicate.1 hy
    have : (0 : ℝ) < K := by exact_mod_cast Nat.pos_of_ne_zero hK
    positivity
  exact ⟨h, h⟩

/-- C94: a mixture of `K` Normal models with diagonal covariance, created with any mean, positive
variances, positive strengths and any noise, can be trained on any non-empty batch of vectors of the
right dimension with any learning rates in `(0, 1]`: no exception, and the lower bound never
decreases. -/
theorem C94_create_train_diagonal (hD : 1 ≤ D) {K : ℕ} (hK : 1 ≤ K) (mean : Fin D → ℝ) (cov : CovArg D)
    (hc : cov.HasDim) (hp : ∀ i, 0 < requested cov i i) (s : ℝ) (hs : 0 < s) (noise : ℝ)
    (randn : Fin K → Fin D → ℝ) (t : ℝ) (ht : 0 < t) (data : List (List ℝ))
    (hd : ∀ x ∈ data, x.length = D) (hne : data ≠ []) (datasize : ℤ) (ls : List ℝ)
    (hl : ∀ l ∈ ls, 0 < l ∧ l ≤ 1) :
    ∃ st st' g g', normalSetCreate mean cov s noise "diagonal" randn = .ok (.diagonal st) ∧
      mixTrain (familySet (ngFam D) K) data datasize (mixCreate (familySet (ngFam D) K) st t) ls = .ok st' ∧
      mixElbo (familySet (ngFam D) K) (mixCreate (familySet (ngFam D) K) st t) data datasize = .ok g ∧
      mixElbo (familySet (ngFam D) K) st' data datasize = .ok g' ∧ g ≤ g' := by
  obtain ⟨st, e, hv, _⟩ := C92_diagonal mean cov hc hp s hs noise randn
  obtain ⟨st', g, g', h1, _, _, h2, h3, h4⟩ := C87_mixture_training hK _ _ _
    (C87_normalset_diagonal hD K) data hd hne datasize ls hl (mixCreate (familySet (ngFam D) K) st t)
    (C94_weights _ _ t ht) hv
  exact ⟨st, st', g, g', e, h1, h2, h3, h4⟩

/-- C94: isotropic covariance. -/
theorem C94_create_train_isotropic (hD : 1 ≤ D) {K : ℕ} (hK : 1 ≤ K) (mean : Fin D → ℝ) (cov : CovArg D)
    (hc : cov.HasDim) (hp : ∀ i, 0 < requested cov i i) (s : ℝ) (hs : 0 < s) (noise : ℝ)
    (randn : Fin K → Fin D → ℝ) (t : ℝ) (ht : 0 < t) (data : List (List ℝ))
    (hd : ∀ x ∈ data, x.length = D) (hne : data ≠ []) (datasize : ℤ) (ls : List ℝ)
    (hl : ∀ l ∈ ls, 0 < l ∧ l ≤ 1) :
    ∃ st st' g g', normalSetCreate mean cov s noise "isotropic" randn = .ok (.isotropic st) ∧
      mixTrain (familySet (ingFam D) K) data datasize (mixCreate (familySet (ingFam D) K) st t) ls = .ok st' ∧
      mixElbo (familySet (ingFam D) K) (mixCreate (familySet (ingFam D) K) st t) data datasize = .ok g ∧
      mixElbo (familySet (ingFam D) K) st' data datasize = .ok g' ∧ g ≤ g' := by
  obtain ⟨st, _, e, hv, _⟩ := C92_isotropic hD mean cov hc hp s hs noise randn
  obtain ⟨st', g, g', h1, _, _, h2, h3, h4⟩ := C87_mixture_training hK _ _ _
    (C87_normalset_isotropic hD K) data hd hne datasize ls hl (mixCreate (familySet (ingFam D) K) st t)
    (C94_weights _ _ t ht) hv
  exact ⟨st, st', g, g', e, h1, h2, h3, h4⟩

/-- C94: full covariance. -/
theorem C94_create_train_full (hD : 1 ≤ D) {K : ℕ} (hK : 1 ≤ K) (mean : Fin D → ℝ) (cov : CovArg D)
    (hc : cov.HasDim) (hp : (requested cov).PosDef) (s : ℝ) (hs : 0 < s) (noise : ℝ)
    (randn : Fin K → Fin D → ℝ) (t : ℝ) (ht : 0 < t) (data : List (Fin D → ℝ))
    (hne : data ≠ []) (datasize : ℤ) (ls : List ℝ) (hl : ∀ l ∈ ls, 0 < l ∧ l ≤ 1) :
    ∃ st st' g g', normalSetCreate mean cov s noise "full" randn = .ok (.full st) ∧
      mixTrain (familySet (nwFam D) K) data datasize (mixCreate (familySet (nwFam D) K) st t) ls = .ok st' ∧
      mixElbo (familySet (nwFam D) K) (mixCreate (familySet (nwFam D) K) st t) data datasize = .ok g ∧
      mixElbo (familySet (nwFam D) K) st' data datasize = .ok g' ∧ g ≤ g' := by
  obtain ⟨st, e, hv, _⟩ := C92_full hD mean cov hc hp s hs noise randn
  obtain ⟨st', g, g', h1, _, _, h2, h3, h4⟩ := C87_mixture_training hK _ _ _
    (C87_normalset_full D K) data (fun _ _ => trivial) hne datasize ls hl
    (mixCreate (familySet (nwFam D) K) st t) (C94_weights _ _ t ht) hv
  exact ⟨st, st', g, g', e, h1, h2, h3, h4⟩

/-- C93 on a concrete training: two components created without noise, trained on data with two
clusters, still share every frame equally. -/
example : ∃ st st', normalSetCreate (0 : Fin 1 → ℝ) (.one 1) 1 0 "diagonal" ![![1], ![-1]] =
      .ok (.diagonal st) ∧
    mixTrain (familySet (ngFam 1) 2) [[5], [-5]] 2 (mixCreate (familySet (ngFam 1) 2) st 1) [1, 1] =
      .ok st' ∧ Indistinct st' := by
  obtain ⟨st, st', _, _, e, h, _⟩ := C94_create_train_diagonal (D := 1) le_rfl (K := 2) (by norm_num) 0
    (.one 1) trivial (by intro i; simp [requested]) 1 one_pos 0 ![![1], ![-1]] 1 one_pos [[5], [-5]]
    (by simp) (by simp) 2 [1, 1] (by simp)
  exact ⟨st, st', e, h, (C93_symmetry_kept (by norm_num) _ _
    (C93_created_without_noise _ _ _ _ _ _ e) _ _ _ h).1⟩

/-- C94: the weights of `MixtureSet.create`: valid for a positive number of mixtures and at least one
component each; no mixture at all raises. -/
theorem C94_mixtureset_weights (size len : ℕ) (t : ℝ) (ht : 0 < t) :
    (0 < size → ∃ w, mixSetWeights size len t = .ok w ∧ SetValid (DirValid (len / size)) w) ∧
    mixSetWeights 0 len t = .error .zeroDivision := by
  refine ⟨fun h => ⟨_, by rw [mixSetWeights, if_neg h.ne'], fun _ => ?_⟩, rfl⟩
  have hv : DirValid (len / size)
      ((List.replicate (len / size) (1 / ((len / size : ℕ) : ℝ))).map (· * t)) := by
    refine ⟨by simp, ?_⟩
    intro x hx
    obtain ⟨y, hy, rfl⟩ := List.mem_map.1 hx
    obtain ⟨hK, rfl⟩ := List.mem_replicate.1 hy
    have : (0 : ℝ) < (len / size : ℕ) := by exact_mod_cast Nat.pos_of_ne_zero hK
    positivity
  exact ⟨hv, hv⟩

example : ∃ w, mixSetWeights 2 6 1 = .ok w ∧ SetValid (DirValid 3) w :=
  (C94_mixtureset_weights 2 6 1 one_pos).1 (by norm_num)

end Verif.Props
