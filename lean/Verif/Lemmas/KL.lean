import Mathlib.Algebra.BigOperators.Fin
import Mathlib.Algebra.BigOperators.Field
import Mathlib.Algebra.Order.BigOperators.Group.Finset
import Mathlib.Tactic.Positivity
import Verif.Lemmas.Beta
import Verif.Lemmas.Dists
import Verif.Spec.Dists

/-!
# Closed forms of the KL divergences
-/

namespace Verif.Dists

open Real Verif.DistSpec

/-! ## Lists as functions on `Fin` -/

theorem exists_ofFn {D : ℕ} (l : List ℝ) (h : l.length = D) :
    ∃ f : Fin D → ℝ, l = List.ofFn f := by
  subst h
  exact ⟨fun i => l[i], List.ofFn_getElem.symm⟩

theorem zipWith_ofFn {D : ℕ} {α β γ : Type*} (g : α → β → γ) (f : Fin D → α) (h : Fin D → β) :
    List.zipWith g (List.ofFn f) (List.ofFn h) = List.ofFn fun i => g (f i) (h i) := by
  apply List.ext_getElem (by simp)
  intro i h1 h2
  simp

theorem vdot_append (a b c d : List ℝ) (h : a.length = c.length) :
    vdot (a ++ b) (c ++ d) = vdot a c + vdot b d := by
  simp [vdot, List.zipWith_append h]

theorem vsub_append (a b c d : List ℝ) (h : a.length = c.length) :
    vsub (a ++ b) (c ++ d) = vsub a c ++ vsub b d := by
  simp [vsub, List.zipWith_append h]

theorem vdot_ofFn {D : ℕ} (f g : Fin D → ℝ) :
    vdot (List.ofFn f) (List.ofFn g) = ∑ i, f i * g i := by
  simp [vdot, zipWith_ofFn, List.sum_ofFn]

theorem vsub_ofFn {D : ℕ} (f g : Fin D → ℝ) :
    vsub (List.ofFn f) (List.ofFn g) = List.ofFn fun i => f i - g i := by
  simp [vsub, zipWith_ofFn]

/-! ## Elementary divergences -/

/-- `t − 1 − ln t`. -/
theorem itakura_nonneg {t : ℝ} (ht : 0 < t) : 0 ≤ t - 1 - log t := by
  have := Real.log_le_sub_one_of_pos ht; linarith

theorem itakura_eq_zero {t : ℝ} (ht : 0 < t) : t - 1 - log t = 0 ↔ t = 1 := by
  constructor
  · intro h
    by_contra hne
    have := Real.log_lt_sub_one_of_pos ht hne
    linarith
  · rintro rfl; simp

/-- KL divergence of two Gamma distributions (one dimension). -/
noncomputable def klGam (a b a' b' : ℝ) : ℝ :=
  lgamma a' - a' * log b' - (lgamma a - a * log b) - a / b * (-b' - -b) -
    (digamma a - log b) * (a' - 1 - (a - 1))

theorem klGam_eq {a b a' b' : ℝ} (ha : 0 < a) (hb : 0 < b) (ha' : 0 < a') (hb' : 0 < b') :
    klGam a b a' b' = (lgamma a' - lgamma a - digamma a * (a' - a) - a' * (log a' - log a) +
      (a' - a)) + a' * (a * b' / (a' * b) - 1 - log (a * b' / (a' * b))) := by
  rw [Real.log_div (by positivity) (by positivity), Real.log_mul ha.ne' hb'.ne',
    Real.log_mul ha'.ne' hb.ne']
  unfold klGam
  have h1 : a / b * (-b' - -b) = a - a * b' / b := by field_simp; ring
  have h2 : a' * (a * b' / (a' * b) - 1 - (log a + log b' - (log a' + log b))) =
      a * b' / b - a' - a' * (log a + log b' - (log a' + log b)) := by
    field_simp
  rw [h1, h2]
  ring

theorem klGam_nonneg {a b a' b' : ℝ} (ha : 0 < a) (hb : 0 < b) (ha' : 0 < a') (hb' : 0 < b') :
    0 ≤ klGam a b a' b' := by
  rw [klGam_eq ha hb ha' hb']
  have h1 := itakura_nonneg (show 0 < a * b' / (a' * b) by positivity)
  have h2 : 0 ≤ a' * (a * b' / (a' * b) - 1 - log (a * b' / (a' * b))) := by positivity
  have h3 : 0 ≤ lgamma a' - lgamma a - digamma a * (a' - a) - a' * (log a' - log a) +
      (a' - a) := by
    by_cases h : a = a'
    · subst h; simp
    · exact (gamma_bregman_pos ha ha' h).le
  linarith

theorem klGam_eq_zero {a b a' b' : ℝ} (ha : 0 < a) (hb : 0 < b) (ha' : 0 < a') (hb' : 0 < b') :
    klGam a b a' b' = 0 ↔ a = a' ∧ b = b' := by
  constructor
  · intro h0
    rw [klGam_eq ha hb ha' hb'] at h0
    have hpos : 0 < a * b' / (a' * b) := by positivity
    have h1 := itakura_nonneg hpos
    have h2 : 0 ≤ a' * (a * b' / (a' * b) - 1 - log (a * b' / (a' * b))) := by positivity
    have hae : a = a' := by
      by_contra h
      have := gamma_bregman_pos ha ha' h
      linarith
    refine ⟨hae, ?_⟩
    subst hae
    have h3 : a * (a * b' / (a * b) - 1 - log (a * b' / (a * b))) = 0 := by
      simp only [sub_self, mul_zero, add_zero, zero_add] at h0
      exact h0
    have h4 := (itakura_eq_zero hpos).1 ((mul_eq_zero.1 h3).resolve_left ha.ne')
    rw [div_eq_one_iff_eq (by positivity)] at h4
    exact (mul_left_cancel₀ ha.ne' h4).symm
  · rintro ⟨rfl, rfl⟩
    simp [klGam]

/-! ## Gamma -/

theorem gamma_kl_formula {D : ℕ} (a b a' b' : Fin D → ℝ) :
    gamLogNorm ⟨List.ofFn a', List.ofFn b'⟩ - gamLogNorm ⟨List.ofFn a, List.ofFn b⟩ -
      vdot (gamExpStats ⟨List.ofFn a, List.ofFn b⟩)
        (vsub (gamNatural ⟨List.ofFn a', List.ofFn b'⟩) (gamNatural ⟨List.ofFn a, List.ofFn b⟩)) =
    ∑ i, klGam (a i) (b i) (a' i) (b' i) := by
  simp only [gamLogNorm, gamExpStats, gamNatural, List.map_ofFn, zipWith_ofFn, List.sum_ofFn]
  rw [vsub_append _ _ _ _ (by simp), vdot_append _ _ _ _ (by simp [vsub]), vsub_ofFn, vsub_ofFn,
    vdot_ofFn, vdot_ofFn, ← Finset.sum_sub_distrib, ← Finset.sum_add_distrib,
    ← Finset.sum_sub_distrib]
  apply Finset.sum_congr rfl
  intro i _
  simp only [Function.comp, klGam]
  ring

/-! ## Normal-Gamma -/

/-- KL of two Normal-Gamma (one coordinate). -/
noncomputable def klNG (m k a b m' k' a' b' : ℝ) : ℝ :=
  klGam a b a' b' + (1/2) * (k' / k - 1 - log (k' / k)) + (1/2) * k' * (a / b) * (m - m') ^ 2

theorem ng_kl_formula {D : ℕ} (m b m' b' : Fin D → ℝ) (k a k' a' : ℝ) (hk : 0 < k) (hk' : 0 < k') :
    ngLogNorm ⟨List.ofFn m', k', a', List.ofFn b'⟩ - ngLogNorm ⟨List.ofFn m, k, a, List.ofFn b⟩ -
      vdot (ngExpStats ⟨List.ofFn m, k, a, List.ofFn b⟩)
        (vsub (ngNatural ⟨List.ofFn m', k', a', List.ofFn b'⟩)
          (ngNatural ⟨List.ofFn m, k, a, List.ofFn b⟩)) =
    ∑ i, klNG (m i) k a (b i) (m' i) k' a' (b' i) := by
  simp only [ngLogNorm, ngExpStats, ngNatural, List.map_ofFn, zipWith_ofFn, List.sum_ofFn,
    List.length_ofFn]
  rw [vsub_append _ _ _ _ (by simp), vsub_append _ _ _ _ (by simp), vdot_append _ _ _ _ (by simp [vsub]),
    vdot_append _ _ _ _ (by simp [vsub]), vsub_ofFn, vsub_ofFn, vdot_ofFn, vdot_ofFn]
  have e : ∀ c d c' d' s t : ℝ, vdot [s, t] (vsub [c', d'] [c, d]) = s * (c' - c) + t * (d' - d) := by
    intro c d c' d' s t
    simp [vdot, vsub]
  rw [e]
  simp only [Function.comp, klNG, klGam, Real.log_div hk'.ne' hk.ne']
  have hD : ∀ c : ℝ, (D : ℝ) * c = ∑ _i : Fin D, c := by
    intro c; simp
  have hk1 : (D : ℝ) / k = ∑ _i : Fin D, 1 / k := by
    simp; ring
  have e1 : (1 / 2 : ℝ) * D * log k' = ∑ _i : Fin D, (1/2) * log k' := by simp; ring
  have e2 : (1 / 2 : ℝ) * D * log k = ∑ _i : Fin D, (1/2) * log k := by simp; ring
  have e5 : ∀ c : ℝ, (∑ i, a / b i * m i ^ 2 + ∑ _i : Fin D, 1 / k) * c =
      ∑ i, (a / b i * m i ^ 2 + 1 / k) * c := by
    intro c
    rw [← Finset.sum_add_distrib, Finset.sum_mul]
  rw [hD (lgamma a'), hD (lgamma a), hk1, e1, e2, e5]
  simp only [Finset.mul_sum, Finset.sum_mul]
  simp only [← Finset.sum_sub_distrib, ← Finset.sum_add_distrib]
  apply Finset.sum_congr rfl
  intro i _
  have h3 : k' / k = 1 / k * k' := by ring
  have h4 : 1 / k * (-(1 / 2) * k' - -(1 / 2) * k) = -(1/2) * (1 / k * k') + 1/2 := by
    field_simp; ring
  rw [h3, add_mul, h4]
  ring

theorem klNG_nonneg {m k a b m' k' a' b' : ℝ} (hk : 0 < k) (ha : 0 < a) (hb : 0 < b) (hk' : 0 < k')
    (ha' : 0 < a') (hb' : 0 < b') : 0 ≤ klNG m k a b m' k' a' b' := by
  have h1 := klGam_nonneg ha hb ha' hb'
  have h2 := itakura_nonneg (show 0 < k' / k by positivity)
  unfold klNG
  positivity

theorem klNG_eq_zero {m k a b m' k' a' b' : ℝ} (hk : 0 < k) (ha : 0 < a) (hb : 0 < b)
    (hk' : 0 < k') (ha' : 0 < a') (hb' : 0 < b') :
    klNG m k a b m' k' a' b' = 0 ↔ m = m' ∧ k = k' ∧ a = a' ∧ b = b' := by
  have h1 := klGam_nonneg ha hb ha' hb'
  have h2 := itakura_nonneg (show 0 < k' / k by positivity)
  have h3 : 0 ≤ (1/2) * k' * (a / b) * (m - m') ^ 2 := by positivity
  constructor
  · intro h0
    unfold klNG at h0
    have e1 : klGam a b a' b' = 0 := by linarith
    have e2 : k' / k - 1 - log (k' / k) = 0 := by linarith
    have e3 : (1/2) * k' * (a / b) * (m - m') ^ 2 = 0 := by linarith
    obtain ⟨r1, r2⟩ := (klGam_eq_zero ha hb ha' hb').1 e1
    have r3 := (itakura_eq_zero (show 0 < k' / k by positivity)).1 e2
    rw [div_eq_one_iff_eq hk.ne'] at r3
    have r4 : (m - m') ^ 2 = 0 := by
      rcases mul_eq_zero.1 e3 with h | h
      · have : 0 < (1/2) * k' * (a / b) := by positivity
        linarith
      · exact h
    have r5 : m - m' = 0 := by simpa using r4
    exact ⟨by linarith, r3.symm, r1, r2⟩
  · rintro ⟨rfl, rfl, rfl, rfl⟩
    unfold klNG
    rw [(klGam_eq_zero ha hb ha hb).2 ⟨rfl, rfl⟩, div_self hk.ne']
    simp

/-! ## Isotropic Normal-Gamma -/

theorem ing_kl_formula {D : ℕ} (m m' : Fin D → ℝ) (k a b k' a' b' : ℝ) (hk : 0 < k) (hk' : 0 < k') :
    ingLogNorm ⟨List.ofFn m', k', a', b'⟩ - ingLogNorm ⟨List.ofFn m, k, a, b⟩ -
      vdot (ingExpStats ⟨List.ofFn m, k, a, b⟩)
        (vsub (ingNatural ⟨List.ofFn m', k', a', b'⟩) (ingNatural ⟨List.ofFn m, k, a, b⟩)) =
    klGam a b a' b' + ∑ i, ((1/2) * (k' / k - 1 - log (k' / k)) +
      (1/2) * k' * (a / b) * (m i - m' i) ^ 2) := by
  simp only [ingLogNorm, ingExpStats, ingNatural, List.map_ofFn, List.sum_ofFn, List.length_ofFn]
  rw [vsub_append _ _ _ _ (by simp), vdot_append _ _ _ _ (by simp [vsub]), vsub_ofFn, vdot_ofFn]
  have e : ∀ c d f c' d' f' s t u : ℝ, vdot [s, t, u] (vsub [c', d', f'] [c, d, f]) =
      s * (c' - c) + t * (d' - d) + u * (f' - f) := by
    intro c d f c' d' f' s t u
    simp [vdot, vsub]; ring
  rw [e, Real.log_div hk'.ne' hk.ne']
  simp only [Function.comp, klGam]
  have hsum : ∑ i, ((1/2) * (k' / k - 1 - (log k' - log k)) +
      (1/2) * k' * (a / b) * (m i - m' i) ^ 2) =
      (D : ℝ) * ((1/2) * (k' / k - 1 - (log k' - log k))) +
      (1/2) * k' * (a / b) * ∑ i, m i ^ 2 + (1/2) * k' * (a / b) * ∑ i, m' i ^ 2
      - k' * (a / b) * ∑ i, m i * m' i := by
    rw [Finset.sum_add_distrib, Finset.mul_sum, Finset.mul_sum, Finset.mul_sum]
    simp only [Finset.sum_const, Finset.card_univ, Fintype.card_fin, nsmul_eq_mul]
    rw [add_assoc, add_sub_assoc, ← Finset.sum_add_distrib, ← Finset.sum_sub_distrib]
    congr 1
    apply Finset.sum_congr rfl
    intro i _
    ring
  have h1 : ∑ i, a / b * m i * (k' * m' i - k * m i) =
      k' * (a / b) * ∑ i, m i * m' i - k * (a / b) * ∑ i, m i ^ 2 := by
    rw [Finset.mul_sum, Finset.mul_sum, ← Finset.sum_sub_distrib]
    apply Finset.sum_congr rfl
    intro i _
    ring
  rw [hsum, h1]
  have h4 : (D : ℝ) / k * (-(1 / 2) * k' - -(1 / 2) * k) = -(1/2) * D * (k' / k) + (1/2) * D := by
    field_simp; ring
  rw [add_mul, h4]
  ring

/-! ## Diagonal Normal -/

/-- KL of two Normals (one coordinate, variances `s`). -/
noncomputable def klNorm (m s m' s' : ℝ) : ℝ :=
  (1/2) * (s / s' - 1 - log (s / s')) + (1/2) * (1 / s') * (m - m') ^ 2

theorem nd_kl_formula {D : ℕ} (m s m' s' : Fin D → ℝ) (hs : ∀ i, 0 < s i) (hs' : ∀ i, 0 < s' i) :
    ndLogNorm ⟨List.ofFn m', List.ofFn s'⟩ - ndLogNorm ⟨List.ofFn m, List.ofFn s⟩ -
      vdot (ndExpStats ⟨List.ofFn m, List.ofFn s⟩)
        (vsub (ndNatural ⟨List.ofFn m', List.ofFn s'⟩) (ndNatural ⟨List.ofFn m, List.ofFn s⟩)) =
    ∑ i, klNorm (m i) (s i) (m' i) (s' i) := by
  simp only [ndLogNorm, ndExpStats, ndNatural, List.map_ofFn, zipWith_ofFn, List.sum_ofFn,
    List.length_ofFn]
  rw [vsub_append _ _ _ _ (by simp), vdot_append _ _ _ _ (by simp [vsub]), vsub_ofFn, vsub_ofFn,
    vdot_ofFn, vdot_ofFn, Finset.mul_sum, Finset.mul_sum, Finset.mul_sum, Finset.mul_sum]
  rw [add_sub_add_right_eq_sub, ← Finset.sum_add_distrib, ← Finset.sum_add_distrib,
    ← Finset.sum_add_distrib, ← Finset.sum_sub_distrib, ← Finset.sum_sub_distrib]
  apply Finset.sum_congr rfl
  intro i _
  have h1 := hs i
  have h2 := hs' i
  simp only [Function.comp, klNorm, Real.log_div h1.ne' h2.ne']
  field_simp
  ring

theorem klNorm_nonneg {m s m' s' : ℝ} (hs : 0 < s) (hs' : 0 < s') : 0 ≤ klNorm m s m' s' := by
  have h2 := itakura_nonneg (show 0 < s / s' by positivity)
  unfold klNorm
  positivity

theorem klNorm_eq_zero {m s m' s' : ℝ} (hs : 0 < s) (hs' : 0 < s') :
    klNorm m s m' s' = 0 ↔ m = m' ∧ s = s' := by
  have h2 := itakura_nonneg (show 0 < s / s' by positivity)
  have h3 : 0 ≤ (1/2) * (1 / s') * (m - m') ^ 2 := by positivity
  constructor
  · intro h0
    unfold klNorm at h0
    have e2 : s / s' - 1 - log (s / s') = 0 := by linarith
    have e3 : (1/2) * (1 / s') * (m - m') ^ 2 = 0 := by linarith
    have r3 := (itakura_eq_zero (show 0 < s / s' by positivity)).1 e2
    rw [div_eq_one_iff_eq hs'.ne'] at r3
    have r4 : (m - m') ^ 2 = 0 := by
      rcases mul_eq_zero.1 e3 with h | h
      · have : 0 < (1/2) * (1 / s') := by positivity
        linarith
      · exact h
    have r5 : m - m' = 0 := by simpa using r4
    exact ⟨by linarith, r3⟩
  · rintro ⟨rfl, rfl⟩
    unfold klNorm
    rw [div_self hs.ne']; simp

/-! ## Dirichlet -/

theorem dir_kl_formula (c c' : List ℝ) (h : c.length = c'.length) (hne : c ≠ []) :
    dirLogNorm c' - dirLogNorm c - vdot (dirExpStats c) (vsub (dirNatural c') (dirNatural c)) =
      (List.zipWith bregL c c').sum - bregL c.sum c'.sum := by
  obtain ⟨l, x, rfl⟩ := List.eq_nil_or_concat c |>.resolve_left hne
  have hne' : c' ≠ [] := by
    rintro rfl; simp at h
  obtain ⟨l', x', rfl⟩ := List.eq_nil_or_concat c' |>.resolve_left hne'
  simp only [List.concat_eq_append] at h ⊢
  have hl : l.length = l'.length := by simpa using h
  obtain ⟨D, hD⟩ : ∃ D, D = l.length := ⟨_, rfl⟩
  obtain ⟨f, rfl⟩ := exists_ofFn (D := D) l hD.symm
  obtain ⟨f', rfl⟩ := exists_ofFn (D := D) l' (by omega)
  simp only [dirLogNorm, dirExpStats, dirNatural, List.map_append, List.map_cons, List.map_nil,
    List.dropLast_concat, List.getLastD_concat, List.map_ofFn, List.sum_append, List.sum_ofFn,
    List.sum_cons, List.sum_nil, add_zero]
  rw [vsub_append _ _ _ _ (by simp), vdot_append _ _ _ _ (by simp [vsub]), vsub_ofFn, vdot_ofFn,
    List.zipWith_append (by simp), zipWith_ofFn]
  simp only [vdot, vsub, List.zipWith_cons_cons, List.zipWith_nil_right, List.sum_cons,
    List.sum_nil, add_zero, List.sum_append, List.sum_ofFn, Function.comp, bregL]
  have e1 : ∑ i, (digamma (f i) - digamma x) * (f' i - 1 - (f i - 1)) =
      ∑ i, digamma (f i) * (f' i - f i) - digamma x * (∑ i, f' i - ∑ i, f i) := by
    rw [← Finset.sum_sub_distrib, Finset.mul_sum, ← Finset.sum_sub_distrib]
    apply Finset.sum_congr rfl
    intro i _
    ring
  have e2 : ∑ i, (lgamma (f' i) - lgamma (f i) - digamma (f i) * (f' i - f i)) =
      ∑ i, lgamma (f' i) - ∑ i, lgamma (f i) - ∑ i, digamma (f i) * (f' i - f i) := by
    rw [← Finset.sum_sub_distrib, ← Finset.sum_sub_distrib]
  have e3 : ∑ i, (f' i - 1) = ∑ i, f' i - D := by simp [Finset.sum_sub_distrib]
  have e4 : ∑ i, (f i - 1) = ∑ i, f i - D := by simp [Finset.sum_sub_distrib]
  rw [e1, e2, e3, e4]
  ring

theorem sum_pos_of_pos (c : List ℝ) (hne : c ≠ []) (h : ∀ x ∈ c, 0 < x) : 0 < c.sum := by
  cases c with
  | nil => exact absurd rfl hne
  | cons x c =>
    have h1 := h x (by simp)
    have h2 : 0 ≤ c.sum := List.sum_nonneg fun y hy => (h y (by simp [hy])).le
    simp only [List.sum_cons]
    linarith

theorem dir_breg_ge (c c' : List ℝ) (h : c.length = c'.length) (hne : c ≠ [])
    (hp : ∀ x ∈ c, 0 < x) (hp' : ∀ x ∈ c', 0 < x) :
    bregL c.sum c'.sum ≤ (List.zipWith bregL c c').sum ∧
    (2 ≤ c.length → (List.zipWith bregL c c').sum ≤ bregL c.sum c'.sum → c = c') := by
  induction c generalizing c' with
  | nil => exact absurd rfl hne
  | cons x c ih =>
    cases c' with
    | nil => simp at h
    | cons x' c' =>
      have hl : c.length = c'.length := by simpa using h
      have hx := hp x (by simp)
      have hx' := hp' x' (by simp)
      simp only [List.zipWith_cons_cons, List.sum_cons]
      rcases eq_or_ne c [] with rfl | hcne
      · have : c' = [] := by
          cases c' with
          | nil => rfl
          | cons _ _ => simp at hl
        subst this
        simp
      · have hcne' : c' ≠ [] := by
          rintro rfl
          simp at hl
          exact hcne hl
        obtain ⟨i1, i2⟩ := ih c' hl hcne (fun y hy => hp y (by simp [hy]))
          (fun y hy => hp' y (by simp [hy]))
        have s := sum_pos_of_pos c hcne (fun y hy => hp y (by simp [hy]))
        have s' := sum_pos_of_pos c' hcne' (fun y hy => hp' y (by simp [hy]))
        have hb := beta_bregman_nonneg hx s hx' s'
        refine ⟨by linarith, ?_⟩
        intro _ hle
        obtain ⟨e1, e2⟩ := beta_bregman_eq hx s hx' s' (by linarith)
        subst e1
        congr 1
        rcases Nat.lt_or_ge c.length 2 with h2 | h2
        · have h1 : c.length = 1 := by
            have : 0 < c.length := List.length_pos_iff.2 hcne
            omega
          obtain ⟨y, rfl⟩ := List.length_eq_one_iff.1 h1
          obtain ⟨y', rfl⟩ := List.length_eq_one_iff.1 (hl ▸ h1)
          simpa using e2
        · apply i2 h2
          have : bregL x x = 0 := by simp [bregL]
          rw [this] at hle hb
          have h0 : ∀ t : ℝ, bregL t t = 0 := fun t => by simp [bregL]
          rw [e2, h0] at hle ⊢
          linarith

end Verif.Dists
