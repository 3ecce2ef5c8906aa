import Verif.Lemmas.RescaleMix

/-!
# Changes of units of the three Normal families
-/

namespace Verif.VB

open Real Matrix Verif.Dists Verif.DistSpec Verif.Props

variable {D : ℕ}

/-! ## Encodings -/

/-- Natural parameters and statistics of a Normal-Gamma, in blocks. -/
def ngEnc (w : (Fin D → ℝ) × (Fin D → ℝ) × ℝ × ℝ) : List ℝ :=
  List.ofFn w.1 ++ List.ofFn w.2.1 ++ [w.2.2.1, w.2.2.2]

theorem ngEnc_vadd (u v : (Fin D → ℝ) × (Fin D → ℝ) × ℝ × ℝ) : vadd (ngEnc u) (ngEnc v) = ngEnc (u + v) := by
  unfold ngEnc
  rw [vadd_append _ _ _ _ (by simp), vadd_append _ _ _ _ (by simp)]
  simp only [vadd, zipWith_ofFn]
  rfl

theorem ngEnc_vsmul (r : ℝ) (u : (Fin D → ℝ) × (Fin D → ℝ) × ℝ × ℝ) : vsmul r (ngEnc u) = ngEnc (r • u) := by
  unfold ngEnc
  rw [vsmul_append, vsmul_append]
  simp only [vsmul, List.map_ofFn]
  rfl

theorem ngEnc_zero : ngEnc (0 : (Fin D → ℝ) × (Fin D → ℝ) × ℝ × ℝ) = List.replicate (2 * D + 2) 0 := by
  unfold ngEnc
  show List.ofFn (fun _ : Fin D => (0 : ℝ)) ++ List.ofFn (fun _ : Fin D => (0 : ℝ)) ++ [0, 0] = _
  rw [List.ofFn_const, show [(0 : ℝ), 0] = List.replicate 2 0 from rfl, List.replicate_append_replicate,
    List.replicate_append_replicate]
  congr 1
  omega

theorem ngEnc_inj : Function.Injective (ngEnc (D := D)) := by
  rintro ⟨u1, u2, u3, u4⟩ ⟨v1, v2, v3, v4⟩ h
  unfold ngEnc at h
  obtain ⟨h1, h2⟩ := List.append_inj h (by simp)
  obtain ⟨h3, h4⟩ := List.append_inj h1 (by simp)
  have e1 := List.ofFn_injective h3
  have e2 := List.ofFn_injective h4
  simp only [List.cons.injEq, and_true] at h2
  dsimp only at e1 e2
  rw [e1, e2, h2.1, h2.2]

theorem vdot_ngEnc (t1 t2 : Fin D → ℝ) (t3 t4 : ℝ) (w : (Fin D → ℝ) × (Fin D → ℝ) × ℝ × ℝ) :
    vdot (List.ofFn t1 ++ List.ofFn t2 ++ [t3, t4]) (ngEnc w) =
      ∑ i, (t1 i * w.1 i + t2 i * w.2.1 i) + t3 * w.2.2.1 + t4 * w.2.2.2 := by
  unfold ngEnc
  rw [vdot_append _ _ _ _ (by simp), vdot_append _ _ _ _ (by simp), vdot_ofFn, vdot_ofFn, Finset.sum_add_distrib]
  simp [vdot]
  ring

/-! ## Diagonal covariance -/

/-- The action of the change of units on natural parameters and statistics. -/
def ngLin (a b : Fin D → ℝ) : ((Fin D → ℝ) × (Fin D → ℝ) × ℝ × ℝ) →ₗ[ℝ] ((Fin D → ℝ) × (Fin D → ℝ) × ℝ × ℝ) where
  toFun w := (fun i => a i * w.1 i - 2 * b i * w.2.2.1, fun i => a i ^ 2 * w.2.1 i - a i * b i * w.1 i + b i ^ 2 * w.2.2.1,
    w.2.2.1, w.2.2.2)
  map_add' u v := by
    refine Prod.ext ?_ (Prod.ext ?_ rfl)
    · funext i; simp only [Prod.fst_add, Prod.snd_add, Pi.add_apply]; ring
    · funext i; simp only [Prod.fst_add, Prod.snd_add, Pi.add_apply]; ring
  map_smul' r u := by
    refine Prod.ext ?_ (Prod.ext ?_ rfl)
    · funext i; simp only [Prod.smul_fst, Prod.smul_snd, Pi.smul_apply, smul_eq_mul, RingHom.id_apply]; ring
    · funext i; simp only [Prod.smul_fst, Prod.smul_snd, Pi.smul_apply, smul_eq_mul, RingHom.id_apply]; ring

/-- A multiple of the last coordinate. -/
def lastForm (k : ℝ) : ((Fin D → ℝ) × (Fin D → ℝ) × ℝ × ℝ) →ₗ[ℝ] ℝ where
  toFun w := k * w.2.2.2
  map_add' u v := by simp only [Prod.snd_add]; ring
  map_smul' r u := by simp only [Prod.smul_snd, smul_eq_mul, RingHom.id_apply]; ring

theorem ngValid_ofFn (p : NG ℝ) (h : NGValid D p) : ∃ m r : Fin D → ℝ, p = ⟨List.ofFn m, p.scale, p.shape, List.ofFn r⟩ ∧
    0 < p.scale ∧ 0 < p.shape ∧ ∀ i, 0 < r i := by
  obtain ⟨mean, k, s, rates⟩ := p
  obtain ⟨h1, h2, h3, h4, h5⟩ := h
  obtain ⟨m, rfl⟩ := exists_ofFn mean h1
  obtain ⟨r, rfl⟩ := exists_ofFn rates h2
  exact ⟨m, r, rfl, h3, h4, fun i => h5 _ (List.mem_ofFn.2 ⟨i, rfl⟩)⟩

theorem unitsNG_ofFn (a b m r : Fin D → ℝ) (k s : ℝ) : unitsNG a b ⟨List.ofFn m, k, s, List.ofFn r⟩ =
    ⟨List.ofFn fun i => a i * m i + b i, k, s, List.ofFn fun i => a i ^ 2 * r i⟩ := by
  unfold unitsNG unitsX
  simp only [getD_ofFn']

theorem ngNatural_ofFn (m r : Fin D → ℝ) (k s : ℝ) : ngNatural ⟨List.ofFn m, k, s, List.ofFn r⟩ =
    ngEnc (fun i => k * m i, fun i => -(1/2) * k * m i ^ 2 - r i, -(1/2) * k, s - 1/2) := by
  unfold ngNatural ngEnc
  simp only [List.map_ofFn, zipWith_ofFn]
  rfl

theorem ngExpStats_ofFn (m r : Fin D → ℝ) (k s : ℝ) : ngExpStats ⟨List.ofFn m, k, s, List.ofFn r⟩ =
    List.ofFn (fun i => s / r i * m i) ++ List.ofFn (fun i => s / r i) ++
      [∑ i, s / r i * m i ^ 2 + (D : ℝ) / k, ∑ i, (digamma s - log (r i))] := by
  unfold ngExpStats
  simp only [List.map_ofFn, zipWith_ofFn, List.sum_ofFn, List.length_ofFn]
  rfl

theorem ng_inj {D : ℕ} (p q : NG ℝ) (hp : NGValid D p) (hq : NGValid D q) (h : ngNatural p = ngNatural q) : p = q := by
  have e1 := C35_normalgamma_roundtrip p (by rw [hp.1, hp.2.1]) hp.2.2.1.ne'
  have e2 := C35_normalgamma_roundtrip q (by rw [hq.1, hq.2.1]) hq.2.2.1.ne'
  rw [h, e2] at e1
  exact (Except.ok.inj e1).symm

/-- New units for the features of a Normal with a diagonal covariance matrix. -/
theorem ng_corresponds (hD : 1 ≤ D) (a b : Fin D → ℝ) (ha : ∀ i, a i ≠ 0) :
    ParamCorresponds (ngFam D) (NGValid D) (fun x => x.length = D) (unitsX a b) (unitsNG a b) (-∑ i, log |a i|) := by
  have hlog : ∀ i, log (a i ^ 2) = 2 * log |a i| := by
    intro i
    rw [← sq_abs, log_pow]
    norm_num
  refine param_corresponds (ngConj hD) ngEnc ngEnc_vadd ngEnc_vsmul ngEnc_zero ngEnc_inj
    (fun p => (fun i => p.scale * p.mean.getD i 0, fun i => -(1/2) * p.scale * p.mean.getD i 0 ^ 2 - p.rates.getD i 0,
      -(1/2) * p.scale, p.shape - 1/2)) ?_
    (fun x => (fun i => x.getD i 0, fun i => -(1/2) * x.getD i 0 ^ 2, -(1/2), 1/2)) ?_ ?_ (ngLin a b)
    (lastForm (-∑ i, 2 * log |a i|)) _ _ _ (-∑ i, log |a i|) ?_ ?_ ?_ ?_ ?_ ?_ ?_
  · intro p hp
    obtain ⟨m, r, e, -⟩ := ngValid_ofFn p hp
    rw [e]
    show ngNatural _ = _
    rw [ngNatural_ofFn]
    simp only [getD_ofFn']
  · intro x hx
    obtain ⟨x, rfl⟩ := exists_ofFn x hx
    show ngStats _ = _
    unfold ngStats ngEnc
    simp only [getD_ofFn', List.map_ofFn]
    rfl
  · exact fun p q hp hq h => ng_inj p q hp hq h
  · intro p hp
    obtain ⟨m, r, e, h3, h4, h5⟩ := ngValid_ofFn p hp
    rw [e, unitsNG_ofFn]
    refine ⟨by simp, by simp, h3, h4, fun x hx => ?_⟩
    obtain ⟨i, rfl⟩ := List.mem_ofFn.1 hx
    have := ha i
    have := h5 i
    positivity
  · intro x _
    show (unitsX a b x).length = D
    unfold unitsX
    simp
  · intro p hp
    obtain ⟨m, r, e, -⟩ := ngValid_ofFn p hp
    rw [e, unitsNG_ofFn]
    simp only [getD_ofFn']
    refine Prod.ext ?_ (Prod.ext ?_ rfl)
    · funext i
      show p.scale * (a i * m i + b i) = a i * (p.scale * m i) - 2 * b i * (-(1/2) * p.scale)
      ring
    · funext i
      show -(1/2) * p.scale * (a i * m i + b i) ^ 2 - a i ^ 2 * r i = a i ^ 2 * (-(1/2) * p.scale * m i ^ 2 - r i) -
        a i * b i * (p.scale * m i) + b i ^ 2 * (-(1/2) * p.scale)
      ring
  · intro x hx
    obtain ⟨x, rfl⟩ := exists_ofFn x hx
    unfold unitsX
    simp only [getD_ofFn']
    refine Prod.ext ?_ (Prod.ext ?_ rfl)
    · funext i
      show a i * x i + b i = a i * x i - 2 * b i * (-(1/2))
      ring
    · funext i
      show -(1/2) * (a i * x i + b i) ^ 2 = a i ^ 2 * (-(1/2) * x i ^ 2) - a i * b i * x i + b i ^ 2 * (-(1/2))
      ring
  · intro p w hp
    obtain ⟨m, r, e, h3, h4, h5⟩ := ngValid_ofFn p hp
    rw [e, unitsNG_ofFn]
    show vdot (ngExpStats _) _ = vdot (ngExpStats _) _ + _
    rw [ngExpStats_ofFn, ngExpStats_ofFn, vdot_ngEnc, vdot_ngEnc]
    show (∑ i, (p.shape / (a i ^ 2 * r i) * (a i * m i + b i) * (a i * w.1 i - 2 * b i * w.2.2.1) +
        p.shape / (a i ^ 2 * r i) * (a i ^ 2 * w.2.1 i - a i * b i * w.1 i + b i ^ 2 * w.2.2.1))) +
        (∑ i, p.shape / (a i ^ 2 * r i) * (a i * m i + b i) ^ 2 + (D : ℝ) / p.scale) * w.2.2.1 +
        (∑ i, (digamma p.shape - log (a i ^ 2 * r i))) * w.2.2.2 =
      (∑ i, (p.shape / r i * m i * w.1 i + p.shape / r i * w.2.1 i)) +
        (∑ i, p.shape / r i * m i ^ 2 + (D : ℝ) / p.scale) * w.2.2.1 +
        (∑ i, (digamma p.shape - log (r i))) * w.2.2.2 + (-∑ i, 2 * log |a i|) * w.2.2.2
    have e1 : ∑ i, (p.shape / (a i ^ 2 * r i) * (a i * m i + b i) * (a i * w.1 i - 2 * b i * w.2.2.1) +
        p.shape / (a i ^ 2 * r i) * (a i ^ 2 * w.2.1 i - a i * b i * w.1 i + b i ^ 2 * w.2.2.1)) +
        (∑ i, p.shape / (a i ^ 2 * r i) * (a i * m i + b i) ^ 2) * w.2.2.1 =
      (∑ i, (p.shape / r i * m i * w.1 i + p.shape / r i * w.2.1 i)) + (∑ i, p.shape / r i * m i ^ 2) * w.2.2.1 := by
      rw [Finset.sum_mul, Finset.sum_mul, ← Finset.sum_add_distrib, ← Finset.sum_add_distrib]
      refine Finset.sum_congr rfl fun i _ => ?_
      have h1 := ha i
      have h2 := (h5 i).ne'
      field_simp
      ring
    have e2 : ∑ i, (digamma p.shape - log (a i ^ 2 * r i)) =
        ∑ i, (digamma p.shape - log (r i)) + (-∑ i, 2 * log |a i|) := by
      rw [← Finset.sum_neg_distrib, ← Finset.sum_add_distrib]
      refine Finset.sum_congr rfl fun i _ => ?_
      rw [log_mul (pow_ne_zero 2 (ha i)) (h5 i).ne', hlog]
      ring
    rw [e2]
    linear_combination e1
  · intro x _
    show (-∑ i, 2 * log |a i|) * (1/2) = -∑ i, log |a i|
    rw [← Finset.mul_sum]
    ring
  · intro p hp
    obtain ⟨m, r, e, h3, h4, h5⟩ := ngValid_ofFn p hp
    rw [e, unitsNG_ofFn]
    show ngLogNorm _ = ngLogNorm _ + (-∑ i, 2 * log |a i|) * (p.shape - 1/2) + _
    unfold ngLogNorm
    simp only [List.map_ofFn, List.sum_ofFn, List.length_ofFn, Function.comp]
    have e2 : ∑ i, log (a i ^ 2 * r i) = ∑ i, 2 * log |a i| + ∑ i, log (r i) := by
      rw [← Finset.sum_add_distrib]
      refine Finset.sum_congr rfl fun i _ => ?_
      rw [log_mul (pow_ne_zero 2 (ha i)) (h5 i).ne', hlog]
    rw [e2, ← Finset.mul_sum]
    ring

/-! ## Isotropic covariance -/

/-- Natural parameters and statistics of an isotropic Normal-Gamma, in blocks. -/
def ingEnc (w : (Fin D → ℝ) × ℝ × ℝ × ℝ) : List ℝ := List.ofFn w.1 ++ [w.2.1, w.2.2.1, w.2.2.2]

theorem ingEnc_vadd (u v : (Fin D → ℝ) × ℝ × ℝ × ℝ) : vadd (ingEnc u) (ingEnc v) = ingEnc (u + v) := by
  unfold ingEnc
  rw [vadd_append _ _ _ _ (by simp)]
  simp only [vadd, zipWith_ofFn]
  rfl

theorem ingEnc_vsmul (r : ℝ) (u : (Fin D → ℝ) × ℝ × ℝ × ℝ) : vsmul r (ingEnc u) = ingEnc (r • u) := by
  unfold ingEnc
  rw [vsmul_append]
  simp only [vsmul, List.map_ofFn]
  rfl

theorem ingEnc_zero : ingEnc (0 : (Fin D → ℝ) × ℝ × ℝ × ℝ) = List.replicate (D + 3) 0 := by
  unfold ingEnc
  show List.ofFn (fun _ : Fin D => (0 : ℝ)) ++ [0, 0, 0] = _
  rw [List.ofFn_const, show [(0 : ℝ), 0, 0] = List.replicate 3 0 from rfl, List.replicate_append_replicate]

theorem ingEnc_inj : Function.Injective (ingEnc (D := D)) := by
  rintro ⟨u1, u2, u3, u4⟩ ⟨v1, v2, v3, v4⟩ h
  unfold ingEnc at h
  obtain ⟨h1, h2⟩ := List.append_inj h (by simp)
  have e1 := List.ofFn_injective h1
  simp only [List.cons.injEq, and_true] at h2
  dsimp only at e1
  rw [e1, h2.1, h2.2.1, h2.2.2]

theorem vdot_ingEnc (t1 : Fin D → ℝ) (t2 t3 t4 : ℝ) (w : (Fin D → ℝ) × ℝ × ℝ × ℝ) :
    vdot (List.ofFn t1 ++ [t2, t3, t4]) (ingEnc w) = t1 ⬝ᵥ w.1 + t2 * w.2.1 + t3 * w.2.2.1 + t4 * w.2.2.2 := by
  unfold ingEnc
  rw [vdot_append _ _ _ _ (by simp), vdot_ofFn]
  simp [vdot, dotProduct]
  ring

/-- The action of a similarity on natural parameters and statistics. -/
def ingLin (A : Matrix (Fin D) (Fin D) ℝ) (b : Fin D → ℝ) (g : ℝ) :
    ((Fin D → ℝ) × ℝ × ℝ × ℝ) →ₗ[ℝ] ((Fin D → ℝ) × ℝ × ℝ × ℝ) where
  toFun w := (A *ᵥ w.1 - (2 * w.2.2.1) • b, g * w.2.1 - b ⬝ᵥ A *ᵥ w.1 + (b ⬝ᵥ b) * w.2.2.1, w.2.2.1, w.2.2.2)
  map_add' u v := by
    refine Prod.ext ?_ (Prod.ext ?_ rfl)
    · simp only [Prod.fst_add, Prod.snd_add, mulVec_add, mul_add, add_smul]; abel
    · simp only [Prod.fst_add, Prod.snd_add, mulVec_add, dotProduct_add]; ring
  map_smul' r u := by
    refine Prod.ext ?_ (Prod.ext ?_ rfl)
    · simp only [Prod.smul_fst, Prod.smul_snd, mulVec_smul, smul_eq_mul, RingHom.id_apply, smul_sub, smul_smul]
      congr 2; ring
    · simp only [Prod.smul_fst, Prod.smul_snd, mulVec_smul, smul_eq_mul, RingHom.id_apply, dotProduct_smul]; ring

/-- A multiple of the last coordinate. -/
def lastForm' (k : ℝ) : ((Fin D → ℝ) × ℝ × ℝ × ℝ) →ₗ[ℝ] ℝ where
  toFun w := k * w.2.2.2
  map_add' u v := by simp only [Prod.snd_add]; ring
  map_smul' r u := by simp only [Prod.smul_snd, smul_eq_mul, RingHom.id_apply]; ring

theorem ingValid_ofFn (p : ING ℝ) (h : INGValid D p) : ∃ m : Fin D → ℝ, p = ⟨List.ofFn m, p.scale, p.shape, p.rate⟩ ∧
    0 < p.scale ∧ 0 < p.shape ∧ 0 < p.rate := by
  obtain ⟨mean, k, s, rate⟩ := p
  obtain ⟨h1, h2, h3, h4⟩ := h
  obtain ⟨m, rfl⟩ := exists_ofFn mean h1
  exact ⟨m, rfl, h2, h3, h4⟩

theorem affX_ofFn (A : Matrix (Fin D) (Fin D) ℝ) (b m : Fin D → ℝ) : affX A b (List.ofFn m) = List.ofFn (A *ᵥ m + b) := by
  unfold affX
  simp only [getD_ofFn']

theorem sum_sq_dot (m : Fin D → ℝ) : ((List.ofFn m).map (· ^ 2)).sum = m ⬝ᵥ m := by
  simp only [List.map_ofFn, List.sum_ofFn, dotProduct, Function.comp, sq]

theorem ingNatural_ofFn (m : Fin D → ℝ) (k s r : ℝ) : ingNatural ⟨List.ofFn m, k, s, r⟩ =
    ingEnc (k • m, -(1/2) * k * (m ⬝ᵥ m) - r, -(1/2) * k, s - 1 + (1/2) * (D : ℝ)) := by
  unfold ingNatural ingEnc
  rw [sum_sq_dot]
  simp only [List.map_ofFn, List.length_ofFn]
  rfl

theorem ingExpStats_ofFn (m : Fin D → ℝ) (k s r : ℝ) : ingExpStats ⟨List.ofFn m, k, s, r⟩ =
    List.ofFn ((s / r) • m) ++ [s / r, s / r * (m ⬝ᵥ m) + (D : ℝ) / k, digamma s - log r] := by
  unfold ingExpStats
  rw [sum_sq_dot]
  simp only [List.map_ofFn, List.length_ofFn]
  rfl

theorem ing_inj {D : ℕ} (p q : ING ℝ) (hp : INGValid D p) (hq : INGValid D q) (h : ingNatural p = ingNatural q) : p = q := by
  have e1 := C36_isonormalgamma_roundtrip p hp.2.1.ne'
  have e2 := C36_isonormalgamma_roundtrip q hq.2.1.ne'
  rw [h, e2] at e1
  exact (Except.ok.inj e1).symm

/-- A rotation, reflection, scaling and shift of the features of a Normal with an isotropic covariance matrix. -/
theorem ing_corresponds (hD : 1 ≤ D) (A : Matrix (Fin D) (Fin D) ℝ) (b : Fin D → ℝ) (g : ℝ) (hg : 0 < g)
    (hA : Aᵀ * A = g • (1 : Matrix (Fin D) (Fin D) ℝ)) :
    ParamCorresponds (ingFam D) (INGValid D) (fun x => x.length = D) (affX A b) (affING A b g)
      (-((D : ℝ) / 2 * log g)) := by
  have hAA : ∀ u v : Fin D → ℝ, (A *ᵥ u) ⬝ᵥ (A *ᵥ v) = g * (u ⬝ᵥ v) := by
    intro u v
    rw [dotProduct_comm, dotProduct_mulVec, ← mulVec_transpose, mulVec_mulVec, hA, smul_mulVec, one_mulVec,
      smul_dotProduct, dotProduct_comm, smul_eq_mul]
  refine param_corresponds (ingConj hD) ingEnc ingEnc_vadd ingEnc_vsmul ingEnc_zero ingEnc_inj
    (fun p => (p.scale • fun i : Fin D => p.mean.getD i 0, -(1/2) * p.scale * ((fun i : Fin D => p.mean.getD i 0) ⬝ᵥ
      fun i => p.mean.getD i 0) - p.rate, -(1/2) * p.scale, p.shape - 1 + (1/2) * (D : ℝ))) ?_
    (fun x => (fun i => x.getD i 0, -(1/2) * ((fun i : Fin D => x.getD i 0) ⬝ᵥ fun i => x.getD i 0), -(1/2),
      (1/2) * (D : ℝ))) ?_ ?_ (ingLin A b g)
    (lastForm' (-log g)) _ _ _ (((D : ℝ) / 2 - 1) * log g) ?_ ?_ ?_ ?_ ?_ ?_ ?_
  · intro p hp
    obtain ⟨m, e, -⟩ := ingValid_ofFn p hp
    rw [e]
    show ingNatural _ = _
    rw [ingNatural_ofFn]
    simp only [getD_ofFn']
  · intro x hx
    obtain ⟨x, rfl⟩ := exists_ofFn x hx
    show ingStats _ = _
    unfold ingStats ingEnc
    rw [sum_sq_dot]
    simp only [getD_ofFn', List.length_ofFn]
  · exact fun p q hp hq h => ing_inj p q hp hq h
  · intro p hp
    obtain ⟨m, e, h2, h3, h4⟩ := ingValid_ofFn p hp
    refine ⟨by simp [affING, affX], h2, h3, mul_pos hg h4⟩
  · intro x _
    show (affX A b x).length = D
    unfold affX
    simp
  · intro p hp
    obtain ⟨m, e, -⟩ := ingValid_ofFn p hp
    rw [e]
    unfold affING
    rw [affX_ofFn]
    simp only [getD_ofFn']
    refine Prod.ext ?_ (Prod.ext ?_ rfl)
    · show p.scale • (A *ᵥ m + b) = A *ᵥ (p.scale • m) - (2 * (-(1/2) * p.scale)) • b
      rw [mulVec_smul, smul_add, sub_eq_add_neg, ← neg_smul]
      congr 2
      ring
    · show -(1/2) * p.scale * ((A *ᵥ m + b) ⬝ᵥ (A *ᵥ m + b)) - g * p.rate =
        g * (-(1/2) * p.scale * (m ⬝ᵥ m) - p.rate) - b ⬝ᵥ A *ᵥ (p.scale • m) + (b ⬝ᵥ b) * (-(1/2) * p.scale)
      rw [add_dotProduct, dotProduct_add, dotProduct_add, hAA, mulVec_smul, dotProduct_smul, smul_eq_mul,
        dotProduct_comm (A *ᵥ m) b]
      ring
  · intro x hx
    obtain ⟨x, rfl⟩ := exists_ofFn x hx
    rw [affX_ofFn]
    simp only [getD_ofFn']
    refine Prod.ext ?_ (Prod.ext ?_ rfl)
    · show A *ᵥ x + b = A *ᵥ x - (2 * (-(1/2)) : ℝ) • b
      rw [sub_eq_add_neg, ← neg_smul]
      norm_num
    · show -(1/2) * ((A *ᵥ x + b) ⬝ᵥ (A *ᵥ x + b)) = g * (-(1/2) * (x ⬝ᵥ x)) - b ⬝ᵥ A *ᵥ x + (b ⬝ᵥ b) * (-(1/2))
      rw [add_dotProduct, dotProduct_add, dotProduct_add, hAA, dotProduct_comm (A *ᵥ x) b]
      ring
  · intro p w hp
    obtain ⟨m, e, h2, h3, h4⟩ := ingValid_ofFn p hp
    rw [e]
    unfold affING
    rw [affX_ofFn]
    show vdot (ingExpStats _) _ = vdot (ingExpStats _) _ + _
    rw [ingExpStats_ofFn, ingExpStats_ofFn, vdot_ingEnc, vdot_ingEnc]
    show ((p.shape / (g * p.rate)) • (A *ᵥ m + b)) ⬝ᵥ (A *ᵥ w.1 - (2 * w.2.2.1) • b) +
        p.shape / (g * p.rate) * (g * w.2.1 - b ⬝ᵥ A *ᵥ w.1 + (b ⬝ᵥ b) * w.2.2.1) +
        (p.shape / (g * p.rate) * ((A *ᵥ m + b) ⬝ᵥ (A *ᵥ m + b)) + (D : ℝ) / p.scale) * w.2.2.1 +
        (digamma p.shape - log (g * p.rate)) * w.2.2.2 =
      ((p.shape / p.rate) • m) ⬝ᵥ w.1 + p.shape / p.rate * w.2.1 +
        (p.shape / p.rate * (m ⬝ᵥ m) + (D : ℝ) / p.scale) * w.2.2.1 + (digamma p.shape - log p.rate) * w.2.2.2 +
        (-log g) * w.2.2.2
    rw [log_mul hg.ne' h4.ne']
    simp only [smul_dotProduct, add_dotProduct, dotProduct_add, dotProduct_sub, dotProduct_smul, smul_eq_mul, hAA,
      dotProduct_comm (A *ᵥ m) b]
    have := hg.ne'
    have := h4.ne'
    field_simp
    ring
  · intro x _
    show -log g * (1/2 * (D : ℝ)) = _
    ring
  · intro p hp
    obtain ⟨m, e, h2, h3, h4⟩ := ingValid_ofFn p hp
    rw [e]
    unfold affING
    rw [affX_ofFn]
    show ingLogNorm _ = ingLogNorm _ + -log g * (p.shape - 1 + 1/2 * (D : ℝ)) + _
    unfold ingLogNorm
    simp only [List.length_ofFn]
    rw [log_mul hg.ne' h4.ne']
    ring

/-! ## Full covariance -/

/-- Natural parameters and statistics of a Normal-Wishart. -/
noncomputable def nwEnc' (w : (Fin D → ℝ) × Matrix (Fin D) (Fin D) ℝ × ℝ × ℝ) : List ℝ := nwEnc w.1 w.2.1 w.2.2.1 w.2.2.2

theorem flat_inj : Function.Injective (flat (D := D)) := fun M N h => by rw [← unflat_flat M, h, unflat_flat]

theorem nwEnc_inj : Function.Injective (nwEnc' (D := D)) := by
  rintro ⟨u1, u2, u3, u4⟩ ⟨v1, v2, v3, v4⟩ h
  unfold nwEnc' nwEnc at h
  obtain ⟨h1, h2⟩ := List.append_inj h (by simp [length_flat])
  obtain ⟨h3, h4⟩ := List.append_inj h1 (by simp)
  have e1 := List.ofFn_injective h3
  have e2 := flat_inj h4
  simp only [List.cons.injEq, and_true] at h2
  have e3 : u2 = v2 := by
    ext i j
    have := congrFun (congrFun e2 i) j
    simp only [Matrix.smul_apply, smul_eq_mul] at this
    linarith
  have e4 : u3 = v3 := by linarith [h2.1]
  have e5 : u4 = v4 := by linarith [h2.2]
  dsimp only at e1
  rw [e1, e3, e4, e5]

theorem nwEnc_zero : nwEnc' (0 : (Fin D → ℝ) × Matrix (Fin D) (Fin D) ℝ × ℝ × ℝ) = List.replicate (D + D * D + 2) 0 := by
  have := wsum_nwStats ([] : WData D)
  simp only [List.map_nil, wsum] at this
  rw [this]
  unfold nwEnc'
  have e1 : wfirst ([] : WData D) = 0 := by funext i; simp [wfirst]
  have e2 : wsecond ([] : WData D) = 0 := by ext i j; simp [wsecond]
  rw [e1, e2]
  rfl

/-- The action of an affine map on natural parameters and statistics. -/
def nwLin (A : Matrix (Fin D) (Fin D) ℝ) (b : Fin D → ℝ) :
    ((Fin D → ℝ) × Matrix (Fin D) (Fin D) ℝ × ℝ × ℝ) →ₗ[ℝ] ((Fin D → ℝ) × Matrix (Fin D) (Fin D) ℝ × ℝ × ℝ) where
  toFun w := (A *ᵥ w.1 + w.2.2.1 • b, A * w.2.1 * Aᵀ + vecMulVec (A *ᵥ w.1) b + vecMulVec b (A *ᵥ w.1) +
    w.2.2.1 • vecMulVec b b, w.2.2.1, w.2.2.2)
  map_add' u v := by
    refine Prod.ext ?_ (Prod.ext ?_ rfl)
    · simp only [Prod.fst_add, Prod.snd_add, mulVec_add, add_smul]; abel
    · simp only [Prod.fst_add, Prod.snd_add, mulVec_add, add_smul, mul_add, add_mul, add_vecMulVec, vecMulVec_add]; abel
  map_smul' r u := by
    refine Prod.ext ?_ (Prod.ext ?_ rfl)
    · simp only [Prod.smul_fst, Prod.smul_snd, mulVec_smul, smul_eq_mul, RingHom.id_apply, smul_add, smul_smul]
    · simp only [Prod.smul_fst, Prod.smul_snd, mulVec_smul, smul_eq_mul, RingHom.id_apply, smul_add, smul_smul,
        smul_vecMulVec, vecMulVec_smul, Matrix.mul_smul, Matrix.smul_mul]

/-- A multiple of the last coordinate. -/
def lastForm'' (k : ℝ) : ((Fin D → ℝ) × Matrix (Fin D) (Fin D) ℝ × ℝ × ℝ) →ₗ[ℝ] ℝ where
  toFun w := k * w.2.2.2
  map_add' u v := by simp only [Prod.snd_add]; ring
  map_smul' r u := by simp only [Prod.smul_snd, smul_eq_mul, RingHom.id_apply]; ring

theorem outer_eq (m : Fin D → ℝ) : outer m = vecMulVec m m := by
  ext i j
  simp [outer, vecMulVec_apply]

theorem frob_vec (M : Matrix (Fin D) (Fin D) ℝ) (u v : Fin D → ℝ) :
    ∑ i, ∑ j, M i j * vecMulVec u v i j = u ⬝ᵥ M *ᵥ v := by
  simp only [dotProduct, mulVec, Finset.mul_sum, vecMulVec_apply]
  refine Finset.sum_congr rfl fun i _ => Finset.sum_congr rfl fun j _ => ?_
  ring

theorem frob_add (M N N' : Matrix (Fin D) (Fin D) ℝ) :
    ∑ i, ∑ j, M i j * (N + N') i j = ∑ i, ∑ j, M i j * N i j + ∑ i, ∑ j, M i j * N' i j := by
  simp only [Matrix.add_apply, mul_add, Finset.sum_add_distrib]

theorem frob_smul (r : ℝ) (M N : Matrix (Fin D) (Fin D) ℝ) :
    ∑ i, ∑ j, M i j * (r • N) i j = r * ∑ i, ∑ j, M i j * N i j := by
  simp only [Finset.mul_sum, Matrix.smul_apply, smul_eq_mul]
  refine Finset.sum_congr rfl fun i _ => Finset.sum_congr rfl fun j _ => ?_
  ring

theorem frob_smul' (r : ℝ) (M N : Matrix (Fin D) (Fin D) ℝ) :
    ∑ i, ∑ j, (r • M) i j * N i j = r * ∑ i, ∑ j, M i j * N i j := by
  simp only [Finset.mul_sum, Matrix.smul_apply, smul_eq_mul]
  refine Finset.sum_congr rfl fun i _ => Finset.sum_congr rfl fun j _ => ?_
  ring

theorem affNW_posDef (A W : Matrix (Fin D) (Fin D) ℝ) (hA : A.det ≠ 0) (hW : W.PosDef) : (A⁻¹ᵀ * W * A⁻¹).PosDef := by
  have hu : IsUnit A⁻¹ := (isUnit_nonsing_inv_iff).2 ((isUnit_iff_isUnit_det _).2 (isUnit_iff_ne_zero.2 hA))
  have := hW.conjTranspose_mul_mul_same (B := A⁻¹) ((mulVec_injective_iff_isUnit).2 hu)
  rwa [conjTranspose_eq_transpose_of_trivial] at this

theorem affNW_valid (A : Matrix (Fin D) (Fin D) ℝ) (b : Fin D → ℝ) (hA : A.det ≠ 0) (p : NW D) (h : NWValid p) :
    NWValid (affNW A b p) := ⟨h.1, affNW_posDef A _ hA h.2.1, h.2.2⟩

theorem affNWD_eq (A : Matrix (Fin D) (Fin D) ℝ) (b : Fin D → ℝ) (p : NW D) : affNWD A b ⟨D, p⟩ = ⟨D, affNW A b p⟩ := by
  unfold affNWD
  rw [dif_pos rfl]

theorem affNW_det (A : Matrix (Fin D) (Fin D) ℝ) (b : Fin D → ℝ) (hA : A.det ≠ 0) (p : NW D) (h : NWValid p) :
    log (affNW A b p).W.det = log p.W.det - 2 * log |A.det| := by
  have hd : p.W.det ≠ 0 := nwValid_det h
  show log (A⁻¹ᵀ * p.W * A⁻¹).det = _
  rw [det_mul, det_mul, det_transpose, det_nonsing_inv, Ring.inverse_eq_inv', mul_right_comm,
    log_mul (by positivity) hd, log_mul (by positivity) (by positivity), log_inv, log_abs]
  ring

theorem nwInv (A W : Matrix (Fin D) (Fin D) ℝ) (hA : A.det ≠ 0) (hW : W.det ≠ 0) :
    (A⁻¹ᵀ * W * A⁻¹)⁻¹ = A * W⁻¹ * Aᵀ := by
  have hu : IsUnit A.det := isUnit_iff_ne_zero.2 hA
  rw [Matrix.mul_inv_rev, Matrix.mul_inv_rev, nonsing_inv_nonsing_inv _ hu, transpose_nonsing_inv,
    nonsing_inv_nonsing_inv _ (by rwa [det_transpose]), Matrix.mul_assoc]

theorem nwD_inj (p q : Σ D : ℕ, NW D) (hp : NWValidD D p) (hq : NWValidD D q) (h : nwN p.2 = nwN q.2) : p = q := by
  obtain ⟨n, p⟩ := p
  obtain ⟨n', q⟩ := q
  obtain ⟨rfl, hp⟩ := hp
  obtain ⟨rfl, hq⟩ := hq
  dsimp only at *
  have e1 := nwEnc_inj (D := n') (a₁ := (p.scale • p.mean, p.W⁻¹ + p.scale • outer p.mean, p.scale, p.dof - n'))
    (a₂ := (q.scale • q.mean, q.W⁻¹ + q.scale • outer q.mean, q.scale, q.dof - n')) h
  simp only [Prod.mk.injEq] at e1
  obtain ⟨h1, h2, h3, h4⟩ := e1
  have hm : p.mean = q.mean := by
    rw [h3] at h1
    exact smul_right_injective _ hq.1.ne' h1
  rw [h3, hm] at h2
  have hW := add_right_cancel h2
  have hW' : p.W = q.W := by
    rw [← nonsing_inv_nonsing_inv p.W (isUnit_iff_ne_zero.2 (nwValid_det hp)), hW,
      nonsing_inv_nonsing_inv q.W (isUnit_iff_ne_zero.2 (nwValid_det hq))]
  have : p = q := NW.ext hm h3 hW' (by linarith)
  rw [this]

/-- An invertible affine map of the features of a Normal with a full covariance matrix. -/
theorem nw_corresponds (A : Matrix (Fin D) (Fin D) ℝ) (b : Fin D → ℝ) (hA : A.det ≠ 0) :
    ParamCorresponds (nwFam D) (NWValidD D) (fun _ => True) (fun x => A *ᵥ x + b) (affNWD A b) (-log |A.det|) := by
  have hu : IsUnit A.det := isUnit_iff_ne_zero.2 hA
  refine param_corresponds (nwConj (D := D)) nwEnc' (fun u v => ?_) (fun r u => ?_) nwEnc_zero nwEnc_inj
    (fun p => if h : p.1 = D then
      let q : NW D := h ▸ p.2
      (q.scale • q.mean, q.W⁻¹ + q.scale • outer q.mean, q.scale, q.dof - D) else 0) ?_
    (fun x => (x, outer x, 1, 1)) (fun x _ => nwStats_eq x) (fun p q hp hq h => nwD_inj p q hp hq h) (nwLin A b)
    (lastForm'' (-log |A.det|)) _ _ _ (-((D : ℝ) * log |A.det|)) ?_ (fun _ _ => trivial) ?_ ?_ ?_ ?_ ?_
  · exact nwEnc_vadd ..
  · exact nwEnc_vsmul ..
  · rintro ⟨n, p⟩ ⟨rfl, hp⟩
    rw [dif_pos rfl]
    rfl
  · rintro ⟨n, p⟩ ⟨rfl, hp⟩
    rw [affNWD_eq]
    exact ⟨rfl, affNW_valid A b hA p hp⟩
  · rintro ⟨n, p⟩ ⟨rfl, hp⟩
    dsimp only at *
    rw [affNWD_eq, dif_pos rfl, dif_pos rfl]
    dsimp only
    refine Prod.ext ?_ (Prod.ext ?_ rfl)
    · show p.scale • (A *ᵥ p.mean + b) = A *ᵥ (p.scale • p.mean) + p.scale • b
      rw [mulVec_smul, smul_add]
    · show (A⁻¹ᵀ * p.W * A⁻¹)⁻¹ + p.scale • outer (A *ᵥ p.mean + b) = A * (p.W⁻¹ + p.scale • outer p.mean) * Aᵀ +
        vecMulVec (A *ᵥ (p.scale • p.mean)) b + vecMulVec b (A *ᵥ (p.scale • p.mean)) + p.scale • vecMulVec b b
      rw [nwInv A _ hA (nwValid_det hp), outer_eq, outer_eq, mulVec_smul]
      simp only [mul_add, add_mul, Matrix.mul_smul, Matrix.smul_mul, smul_vecMulVec, vecMulVec_smul, add_vecMulVec,
        vecMulVec_add, smul_add, mul_vecMulVec, vecMulVec_mul, vecMul_transpose]
      abel
  · intro x _
    refine Prod.ext ?_ (Prod.ext ?_ rfl)
    · show A *ᵥ x + b = A *ᵥ x + (1 : ℝ) • b
      rw [one_smul]
    · show outer (A *ᵥ x + b) = A * outer x * Aᵀ + vecMulVec (A *ᵥ x) b + vecMulVec b (A *ᵥ x) + (1 : ℝ) • vecMulVec b b
      rw [outer_eq, outer_eq, one_smul]
      simp only [add_vecMulVec, vecMulVec_add, mul_vecMulVec, vecMulVec_mul, vecMul_transpose]
      abel
  · rintro ⟨n, p⟩ w ⟨rfl, hp⟩
    dsimp only at *
    rw [affNWD_eq]
    show vdot (nwT (affNW A b p)) (nwEnc _ _ _ _) = vdot (nwT p) (nwEnc _ _ _ _) + -log |A.det| * w.2.2.2
    unfold nwT
    rw [vdot_nwEnc, vdot_nwEnc, affNW_det A b hA p hp]
    have hs' : (A⁻¹ᵀ * p.W * A⁻¹).IsSymm := (affNW_posDef A _ hA hp.2.1).isHermitian
    have hs : p.W.IsSymm := hp.2.1.isHermitian
    have i1 : ∀ u : Fin n → ℝ, (A⁻¹ᵀ * p.W * A⁻¹) *ᵥ (A *ᵥ u) = A⁻¹ᵀ *ᵥ (p.W *ᵥ u) := by
      intro u
      rw [mulVec_mulVec, Matrix.mul_assoc, nonsing_inv_mul _ hu, Matrix.mul_one, ← mulVec_mulVec]
    have i2 : ∀ z u : Fin n → ℝ, (A⁻¹ᵀ *ᵥ z) ⬝ᵥ (A *ᵥ u) = z ⬝ᵥ u := by
      intro z u
      rw [mulVec_transpose, ← dotProduct_mulVec, mulVec_mulVec, nonsing_inv_mul _ hu, one_mulVec]
    have i3 : ∑ i, ∑ j, (A⁻¹ᵀ * p.W * A⁻¹) i j * (A * w.2.1 * Aᵀ) i j = ∑ i, ∑ j, p.W i j * w.2.1 i j := by
      rw [frob_eq_trace _ _ hs', frob_eq_trace _ _ hs]
      rw [show A⁻¹ᵀ * p.W * A⁻¹ * (A * w.2.1 * Aᵀ) = A⁻¹ᵀ * (p.W * (A⁻¹ * A) * w.2.1 * Aᵀ) by
        simp only [Matrix.mul_assoc], nonsing_inv_mul _ hu, Matrix.mul_one, trace_mul_comm]
      rw [Matrix.mul_assoc (p.W * w.2.1), ← transpose_mul, nonsing_inv_mul _ hu, transpose_one, Matrix.mul_one]
    show (p.dof • (A⁻¹ᵀ * p.W * A⁻¹) *ᵥ (A *ᵥ p.mean + b)) ⬝ᵥ (A *ᵥ w.1 + w.2.2.1 • b) -
        (1/2) * (∑ i, ∑ j, (p.dof • (A⁻¹ᵀ * p.W * A⁻¹)) i j * (A * w.2.1 * Aᵀ + vecMulVec (A *ᵥ w.1) b +
          vecMulVec b (A *ᵥ w.1) + w.2.2.1 • vecMulVec b b) i j) -
        (1/2) * (w.2.2.1 * ((n : ℝ) / p.scale + p.dof * ((A *ᵥ p.mean + b) ⬝ᵥ (A⁻¹ᵀ * p.W * A⁻¹) *ᵥ (A *ᵥ p.mean + b)))) +
        (1/2) * (w.2.2.2 * ((∑ i : Fin n, digamma (p.dof / 2 - (i : ℝ) / 2)) + (n : ℝ) * log 2 +
          (log p.W.det - 2 * log |A.det|))) = _
    rw [frob_smul', frob_add, frob_add, frob_add, frob_smul, frob_vec, frob_vec, frob_vec, i3, frob_smul']
    have j1 : (A *ᵥ w.1) ⬝ᵥ (A⁻¹ᵀ * p.W * A⁻¹) *ᵥ b = (A⁻¹ᵀ *ᵥ (p.W *ᵥ w.1)) ⬝ᵥ b := by
      rw [quad_symm _ hs', i1, dotProduct_comm]
    have j2 : ((A⁻¹ᵀ * p.W * A⁻¹) *ᵥ b) ⬝ᵥ (A *ᵥ w.1) = (A⁻¹ᵀ *ᵥ (p.W *ᵥ w.1)) ⬝ᵥ b := by
      rw [dotProduct_comm, j1]
    have j3 : (A *ᵥ p.mean) ⬝ᵥ (A⁻¹ᵀ * p.W * A⁻¹) *ᵥ b = (A⁻¹ᵀ *ᵥ (p.W *ᵥ p.mean)) ⬝ᵥ b := by
      rw [quad_symm _ hs', i1, dotProduct_comm]
    have j4 : b ⬝ᵥ (A⁻¹ᵀ * p.W * A⁻¹) *ᵥ (A *ᵥ w.1) = (A⁻¹ᵀ *ᵥ (p.W *ᵥ w.1)) ⬝ᵥ b := by
      rw [i1, dotProduct_comm]
    have j5 : b ⬝ᵥ (A⁻¹ᵀ * p.W * A⁻¹) *ᵥ (A *ᵥ p.mean) = (A⁻¹ᵀ *ᵥ (p.W *ᵥ p.mean)) ⬝ᵥ b := by
      rw [i1, dotProduct_comm]
    have j6 : (A *ᵥ p.mean) ⬝ᵥ (A⁻¹ᵀ * p.W * A⁻¹) *ᵥ (A *ᵥ p.mean) = p.mean ⬝ᵥ p.W *ᵥ p.mean := by
      rw [i1, dotProduct_comm, i2, dotProduct_comm]
    have j7 : ((A⁻¹ᵀ * p.W * A⁻¹) *ᵥ (A *ᵥ p.mean)) ⬝ᵥ (A *ᵥ w.1) = (p.W *ᵥ p.mean) ⬝ᵥ w.1 := by rw [i1, i2]
    have j8 : ((A⁻¹ᵀ * p.W * A⁻¹) *ᵥ (A *ᵥ p.mean)) ⬝ᵥ b = (A⁻¹ᵀ *ᵥ (p.W *ᵥ p.mean)) ⬝ᵥ b := by rw [i1]
    have j9 : ((A⁻¹ᵀ * p.W * A⁻¹) *ᵥ b) ⬝ᵥ b = b ⬝ᵥ (A⁻¹ᵀ * p.W * A⁻¹) *ᵥ b := dotProduct_comm _ _
    simp only [mulVec_add, smul_add, smul_dotProduct, add_dotProduct, dotProduct_add, dotProduct_smul, smul_eq_mul, j1, j2,
      j3, j4, j5, j6, j7, j8, j9]
    ring
  · intro x _
    show -log |A.det| * 1 = _
    ring
  · rintro ⟨n, p⟩ ⟨rfl, hp⟩
    dsimp only at *
    rw [affNWD_eq, dif_pos rfl]
    show nwA (affNW A b p) = nwA p + -log |A.det| * (p.dof - (n : ℝ)) + _
    unfold nwA
    rw [affNW_det A b hA p hp]
    show (1/2) * p.dof * (log p.W.det - 2 * log |A.det|) + (1/2) * p.dof * (n : ℝ) * log 2 + (1/4) * (n : ℝ) * ((n : ℝ) - 1) * log π
      + (∑ i : Fin n, lgamma (p.dof / 2 - (i : ℝ) / 2)) - (1/2) * (n : ℝ) * log p.scale + (1/2) * (n : ℝ) * log (2 * π) = _
    ring

end Verif.VB
