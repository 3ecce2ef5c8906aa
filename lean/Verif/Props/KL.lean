import Mathlib.Tactic.FinCases
import Verif.Lemmas.KL
import Verif.Spec.KL

/-!
# C39, C40, C41: KL divergences and expected log weights
-/

namespace Verif.Props

open Verif Verif.Dists Verif.DistSpec Real

theorem ofFn_pos {D : ℕ} {f : Fin D → ℝ} (h : ∀ x ∈ List.ofFn f, 0 < x) (i : Fin D) : 0 < f i :=
  h _ (by rw [List.mem_ofFn]; exact ⟨i, rfl⟩)

/-! ## C40 -/

theorem sameClass_iff (p q : Dist) : SameClass p q ↔ p.cls = q.cls := by
  constructor
  · intro h; cases h <;> rfl
  · intro h
    cases p <;> cases q <;> first | constructor | (simp [Dist.cls] at h)

/-- Lengths of the natural parameters and of the expected statistics of a valid distribution. -/
theorem valid_lengths {D : ℕ} (hD : 1 ≤ D) (p q : Dist) (hp : Valid D p) (hq : Valid D q)
    (h : p.cls = q.cls) :
    p.natural.length = q.natural.length ∧ p.expStats.length = p.natural.length := by
  have hsc := (sameClass_iff p q).2 h
  cases hsc with
  | dirichlet c c' =>
    obtain ⟨h1, -⟩ := hp
    obtain ⟨h2, -⟩ := hq
    simp only [Dist.natural, Dist.expStats, dirNatural, dirExpStats, List.length_append,
      List.length_map, List.length_dropLast, List.length_cons, List.length_nil]
    exact ⟨by omega, trivial⟩
  | gamma p p' =>
    obtain ⟨h1, h2, -⟩ := hp
    obtain ⟨h3, h4, -⟩ := hq
    simp [Dist.natural, Dist.expStats, gamNatural, gamExpStats, h1, h2, h3, h4]
  | normalGamma p p' =>
    obtain ⟨h1, h2, -⟩ := hp
    obtain ⟨h3, h4, -⟩ := hq
    simp [Dist.natural, Dist.expStats, ngNatural, ngExpStats, h1, h2, h3, h4]
  | isoNormalGamma p p' =>
    obtain ⟨h1, -⟩ := hp
    obtain ⟨h3, -⟩ := hq
    simp [Dist.natural, Dist.expStats, ingNatural, ingExpStats, h1, h3]
  | normalDiag p p' =>
    obtain ⟨h1, h2, -⟩ := hp
    obtain ⟨h3, h4, -⟩ := hq
    simp [Dist.natural, Dist.expStats, ndNatural, ndExpStats, h1, h2, h3, h4]

theorem valid_dim {D D' : ℕ} (p q : Dist) (hp : Valid D p) (hq : Valid D' q)
    (h : p.cls = q.cls) : p.dim = q.dim ↔ D = D' := by
  have hsc := (sameClass_iff p q).2 h
  cases hsc with
  | dirichlet c c' => simp [Dist.dim, hp.1, hq.1]
  | gamma p p' => simp [Dist.dim, hp.1, hq.1]
  | normalGamma p p' => simp [Dist.dim, hp.1, hq.1, hp.2.1, hq.2.1]
  | isoNormalGamma p p' => simp [Dist.dim, hp.1, hq.1]
  | normalDiag p p' => simp [Dist.dim, hp.1, hq.1]

/-- C40: the outcome of `kl_div` on valid distributions, exactly: the type error if and only if
the classes differ; else the dimension error if and only if the supports differ; else a value. -/
theorem C40_kl_decision {D D' : ℕ} (hD : 1 ≤ D) (hD' : 1 ≤ D') (p q : Dist) (hp : Valid D p)
    (hq : Valid D' q) :
    (klDiv p q = .error .typeMismatch ↔ ¬ SameClass p q) ∧
    (klDiv p q = .error .dimMismatch ↔ SameClass p q ∧ D ≠ D') ∧
    ((∃ v, klDiv p q = .ok v) ↔ SameClass p q ∧ D = D') := by
  rw [sameClass_iff]
  unfold klDiv
  by_cases h1 : p.cls = q.cls
  · rw [if_neg (by simpa using h1)]
    have hd := valid_dim p q hp hq h1
    by_cases h2 : D = D'
    · rw [if_neg (by simpa using hd.2 h2)]
      subst h2
      obtain ⟨l1, l2⟩ := valid_lengths hD p q hp hq h1
      rw [if_neg (by simp [l1, l2])]
      simp [h1]
    · rw [if_pos (by simpa using fun h => h2 (hd.1 h))]
      simp [h1, h2]
  · rw [if_pos h1]
    simp [h1]

example : klDiv (.dirichlet [1, 2]) (.gamma ⟨[1, 1], [1, 1]⟩) = .error .typeMismatch := by
  refine (C40_kl_decision (D := 2) (D' := 2) (by norm_num) (by norm_num) _ _ ?_ ?_).1.2
    (by intro h; cases h)
  · simp [Valid, DirValid]
  · simp [Valid, GamValid]

example : klDiv (.dirichlet [1, 2]) (.dirichlet [1, 2, 3]) = .error .dimMismatch := by
  refine (C40_kl_decision (D := 2) (D' := 3) (by norm_num) (by norm_num) _ _ ?_ ?_).2.1.2
    ⟨by constructor, by norm_num⟩
  · simp [Valid, DirValid]
  · simp [Valid, DirValid]

/-- C40, without any assumption on the parameters: two distributions of the same class whose
parameter vectors differ in size are refused, the rates of a Normal-Gamma included. -/
theorem C40_kl_refuses_sizes :
    (∀ c c' : List ℝ, c.length ≠ c'.length →
      klDiv (.dirichlet c) (.dirichlet c') = .error .dimMismatch) ∧
    (∀ p q : GammaP ℝ, p.shape.length ≠ q.shape.length →
      klDiv (.gamma p) (.gamma q) = .error .dimMismatch) ∧
    (∀ p q : NG ℝ, (p.mean.length ≠ q.mean.length ∨ p.rates.length ≠ q.rates.length) →
      klDiv (.normalGamma p) (.normalGamma q) = .error .dimMismatch) ∧
    (∀ p q : ING ℝ, p.mean.length ≠ q.mean.length →
      klDiv (.isoNormalGamma p) (.isoNormalGamma q) = .error .dimMismatch) ∧
    (∀ p q : ND ℝ, p.mean.length ≠ q.mean.length →
      klDiv (.normalDiag p) (.normalDiag q) = .error .dimMismatch) := by
  refine ⟨?_, ?_, ?_, ?_, ?_⟩
  · intro c c' h
    simp [klDiv, Dist.cls, Dist.dim, h]
  · intro p q h
    simp [klDiv, Dist.cls, Dist.dim, h]
  · intro p q h
    have : ¬ (p.mean.length = q.mean.length ∧ p.rates.length = q.rates.length) := by tauto
    simp [klDiv, Dist.cls, Dist.dim, this]
  · intro p q h
    simp [klDiv, Dist.cls, Dist.dim, h]
  · intro p q h
    simp [klDiv, Dist.cls, Dist.dim, h]

example : klDiv (.normalGamma ⟨[1, 2], 1, 1, [1, 1]⟩) (.normalGamma ⟨[1, 2], 1, 1, [1, 1, 1]⟩) =
    .error .dimMismatch :=
  C40_kl_refuses_sizes.2.2.1 _ _ (Or.inr (by simp))

/-! ## C39 -/

theorem klDiv_value {D : ℕ} (hD : 1 ≤ D) (p q : Dist) (hp : Valid D p) (hq : Valid D q)
    (h : SameClass p q) :
    klDiv p q = .ok (q.logNorm - p.logNorm - vdot p.expStats (vsub q.natural p.natural)) := by
  have hc := (sameClass_iff p q).1 h
  unfold klDiv
  obtain ⟨l1, l2⟩ := valid_lengths hD p q hp hq hc
  rw [if_neg (by simpa using hc), if_neg (by simpa using (valid_dim p q hp hq hc).2 rfl),
    if_neg (by simp [l1, l2])]

/-- C39: between two valid distributions of the same class on the same `D`-dimensional support
`kl_div` returns a non-negative number.  (Dirichlet, Gamma, Normal-Gamma, isotropic Normal-Gamma,
diagonal Normal.) -/
theorem C39_kl_nonneg {D : ℕ} (hD : 1 ≤ D) (p q : Dist) (hp : Valid D p) (hq : Valid D q)
    (h : SameClass p q) : ∃ v, klDiv p q = .ok v ∧ 0 ≤ v := by
  refine ⟨_, klDiv_value hD p q hp hq h, ?_⟩
  cases h with
  | dirichlet c c' =>
    have hne : c ≠ [] := by
      rintro rfl
      have := hp.1
      simp at this
      omega
    simp only [Dist.logNorm, Dist.expStats, Dist.natural]
    rw [dir_kl_formula c c' (hp.1.trans hq.1.symm) hne]
    have := (dir_breg_ge c c' (hp.1.trans hq.1.symm) hne hp.2 hq.2).1
    linarith
  | gamma p p' =>
    obtain ⟨a, b⟩ := p
    obtain ⟨a', b'⟩ := p'
    obtain ⟨h1, h2, h3, h4⟩ := hp
    obtain ⟨h1', h2', h3', h4'⟩ := hq
    obtain ⟨a, rfl⟩ := exists_ofFn _ h1
    obtain ⟨b, rfl⟩ := exists_ofFn _ h2
    obtain ⟨a', rfl⟩ := exists_ofFn _ h1'
    obtain ⟨b', rfl⟩ := exists_ofFn _ h2'
    simp only [Dist.logNorm, Dist.expStats, Dist.natural]
    rw [gamma_kl_formula]
    exact Finset.sum_nonneg fun i _ =>
      klGam_nonneg (ofFn_pos h3 i) (ofFn_pos h4 i) (ofFn_pos h3' i) (ofFn_pos h4' i)
  | normalGamma p p' =>
    obtain ⟨m, k, a, b⟩ := p
    obtain ⟨m', k', a', b'⟩ := p'
    obtain ⟨h1, h2, hk, ha, h4⟩ := hp
    obtain ⟨h1', h2', hk', ha', h4'⟩ := hq
    obtain ⟨m, rfl⟩ := exists_ofFn _ h1
    obtain ⟨b, rfl⟩ := exists_ofFn _ h2
    obtain ⟨m', rfl⟩ := exists_ofFn _ h1'
    obtain ⟨b', rfl⟩ := exists_ofFn _ h2'
    simp only [Dist.logNorm, Dist.expStats, Dist.natural]
    rw [ng_kl_formula m b m' b' k a k' a' hk hk']
    exact Finset.sum_nonneg fun i _ => klNG_nonneg hk ha (ofFn_pos h4 i) hk' ha' (ofFn_pos h4' i)
  | isoNormalGamma p p' =>
    obtain ⟨m, k, a, b⟩ := p
    obtain ⟨m', k', a', b'⟩ := p'
    obtain ⟨h1, hk, ha, hb⟩ := hp
    obtain ⟨h1', hk', ha', hb'⟩ := hq
    dsimp only at h1 hk ha hb h1' hk' ha' hb'
    obtain ⟨m, rfl⟩ := exists_ofFn _ h1
    obtain ⟨m', rfl⟩ := exists_ofFn _ h1'
    simp only [Dist.logNorm, Dist.expStats, Dist.natural]
    rw [ing_kl_formula m m' k a b k' a' b' hk hk']
    have h2 := itakura_nonneg (show 0 < k' / k by positivity)
    have := klGam_nonneg ha hb ha' hb'
    have h3 : 0 ≤ ∑ i, ((1/2) * (k' / k - 1 - log (k' / k)) +
      (1/2) * k' * (a / b) * (m i - m' i) ^ 2) := Finset.sum_nonneg fun i _ => by positivity
    linarith
  | normalDiag p p' =>
    obtain ⟨m, s⟩ := p
    obtain ⟨m', s'⟩ := p'
    obtain ⟨h1, h2, h4⟩ := hp
    obtain ⟨h1', h2', h4'⟩ := hq
    obtain ⟨m, rfl⟩ := exists_ofFn _ h1
    obtain ⟨s, rfl⟩ := exists_ofFn _ h2
    obtain ⟨m', rfl⟩ := exists_ofFn _ h1'
    obtain ⟨s', rfl⟩ := exists_ofFn _ h2'
    simp only [Dist.logNorm, Dist.expStats, Dist.natural]
    rw [nd_kl_formula m s m' s' (ofFn_pos h4) (ofFn_pos h4')]
    exact Finset.sum_nonneg fun i _ => klNorm_nonneg (ofFn_pos h4 i) (ofFn_pos h4' i)

/-- C39: `kl_div` is zero exactly for equal parameters.  The support must have dimension at least
two for the Dirichlet (on one category there is only one distribution). -/
theorem C39_kl_zero_iff {D : ℕ} (hD : 1 ≤ D) (p q : Dist) (hp : Valid D p) (hq : Valid D q)
    (h : SameClass p q) (hdir : ∀ c, p = .dirichlet c → 2 ≤ D) :
    klDiv p q = .ok 0 ↔ p = q := by
  rw [klDiv_value hD p q hp hq h, Except.ok.injEq]
  cases h with
  | dirichlet c c' =>
    have h2 := hdir c rfl
    have hne : c ≠ [] := by
      rintro rfl
      have := hp.1
      simp at this
      omega
    simp only [Dist.logNorm, Dist.expStats, Dist.natural]
    rw [dir_kl_formula c c' (hp.1.trans hq.1.symm) hne]
    have := (dir_breg_ge c c' (hp.1.trans hq.1.symm) hne hp.2 hq.2).2 (hp.1 ▸ h2)
    constructor
    · intro h0
      rw [this (by linarith)]
    · intro h0
      injection h0 with h0
      subst h0
      have hz : ∀ t : ℝ, bregL t t = 0 := fun t => by simp [bregL]
      rw [hz]
      clear this h2 hne hp hq hdir
      induction c with
      | nil => simp
      | cons x c ih => simpa [hz] using ih
  | gamma p p' =>
    obtain ⟨a, b⟩ := p
    obtain ⟨a', b'⟩ := p'
    obtain ⟨h1, h2, h3, h4⟩ := hp
    obtain ⟨h1', h2', h3', h4'⟩ := hq
    obtain ⟨a, rfl⟩ := exists_ofFn _ h1
    obtain ⟨b, rfl⟩ := exists_ofFn _ h2
    obtain ⟨a', rfl⟩ := exists_ofFn _ h1'
    obtain ⟨b', rfl⟩ := exists_ofFn _ h2'
    simp only [Dist.logNorm, Dist.expStats, Dist.natural]
    rw [gamma_kl_formula, Finset.sum_eq_zero_iff_of_nonneg fun i _ =>
      klGam_nonneg (ofFn_pos h3 i) (ofFn_pos h4 i) (ofFn_pos h3' i) (ofFn_pos h4' i)]
    simp only [Finset.mem_univ, forall_const, Dist.gamma.injEq, GammaP.mk.injEq,
      List.ofFn_inj]
    constructor
    · intro h0
      have := fun i => (klGam_eq_zero (ofFn_pos h3 i) (ofFn_pos h4 i) (ofFn_pos h3' i)
        (ofFn_pos h4' i)).1 (h0 i)
      exact ⟨funext fun i => (this i).1, funext fun i => (this i).2⟩
    · rintro ⟨rfl, rfl⟩ i
      exact (klGam_eq_zero (ofFn_pos h3 i) (ofFn_pos h4 i) (ofFn_pos h3' i)
        (ofFn_pos h4' i)).2 ⟨rfl, rfl⟩
  | normalGamma p p' =>
    obtain ⟨m, k, a, b⟩ := p
    obtain ⟨m', k', a', b'⟩ := p'
    obtain ⟨h1, h2, hk, ha, h4⟩ := hp
    obtain ⟨h1', h2', hk', ha', h4'⟩ := hq
    obtain ⟨m, rfl⟩ := exists_ofFn _ h1
    obtain ⟨b, rfl⟩ := exists_ofFn _ h2
    obtain ⟨m', rfl⟩ := exists_ofFn _ h1'
    obtain ⟨b', rfl⟩ := exists_ofFn _ h2'
    simp only [Dist.logNorm, Dist.expStats, Dist.natural]
    rw [ng_kl_formula m b m' b' k a k' a' hk hk', Finset.sum_eq_zero_iff_of_nonneg fun i _ =>
      klNG_nonneg hk ha (ofFn_pos h4 i) hk' ha' (ofFn_pos h4' i)]
    simp only [Finset.mem_univ, forall_const, Dist.normalGamma.injEq, NG.mk.injEq,
      List.ofFn_inj]
    constructor
    · intro h0
      have := fun i => (klNG_eq_zero hk ha (ofFn_pos h4 i) hk' ha' (ofFn_pos h4' i)).1 (h0 i)
      exact ⟨funext fun i => (this i).1, (this ⟨0, hD⟩).2.1, (this ⟨0, hD⟩).2.2.1,
        funext fun i => (this i).2.2.2⟩
    · rintro ⟨rfl, rfl, rfl, rfl⟩ i
      exact (klNG_eq_zero hk ha (ofFn_pos h4 i) hk' ha' (ofFn_pos h4' i)).2 ⟨rfl, rfl, rfl, rfl⟩
  | isoNormalGamma p p' =>
    obtain ⟨m, k, a, b⟩ := p
    obtain ⟨m', k', a', b'⟩ := p'
    obtain ⟨h1, hk, ha, hb⟩ := hp
    obtain ⟨h1', hk', ha', hb'⟩ := hq
    dsimp only at h1 hk ha hb h1' hk' ha' hb'
    obtain ⟨m, rfl⟩ := exists_ofFn _ h1
    obtain ⟨m', rfl⟩ := exists_ofFn _ h1'
    simp only [Dist.logNorm, Dist.expStats, Dist.natural]
    rw [ing_kl_formula m m' k a b k' a' b' hk hk']
    have hkk : 0 < k' / k := by positivity
    have h2 := itakura_nonneg hkk
    have h3 := klGam_nonneg ha hb ha' hb'
    have hterm : ∀ i, 0 ≤ (1/2) * (k' / k - 1 - log (k' / k)) +
      (1/2) * k' * (a / b) * (m i - m' i) ^ 2 := fun i => by positivity
    have h4 : 0 ≤ ∑ i, ((1/2) * (k' / k - 1 - log (k' / k)) +
      (1/2) * k' * (a / b) * (m i - m' i) ^ 2) := Finset.sum_nonneg fun i _ => hterm i
    simp only [Dist.isoNormalGamma.injEq, ING.mk.injEq, List.ofFn_inj]
    constructor
    · intro h0
      have e1 : klGam a b a' b' = 0 := by linarith
      have e2 := (Finset.sum_eq_zero_iff_of_nonneg fun i _ => hterm i).1
        (le_antisymm (by linarith) h4)
      have hq : ∀ i, 0 ≤ (1/2) * k' * (a / b) * (m i - m' i) ^ 2 := fun i => by positivity
      have e3 : ∀ i, (1/2) * k' * (a / b) * (m i - m' i) ^ 2 = 0 := fun i => by
        have := e2 i (Finset.mem_univ i)
        have := hq i
        linarith
      have e4 : k' / k - 1 - log (k' / k) = 0 := by
        have := e2 ⟨0, hD⟩ (Finset.mem_univ _)
        have := e3 ⟨0, hD⟩
        linarith
      obtain ⟨r1, r2⟩ := (klGam_eq_zero ha hb ha' hb').1 e1
      have r3 := (itakura_eq_zero hkk).1 e4
      rw [div_eq_one_iff_eq hk.ne'] at r3
      refine ⟨funext fun i => ?_, r3.symm, r1, r2⟩
      have hc : (1/2) * k' * (a / b) ≠ 0 := by positivity
      have r5 := (mul_eq_zero.1 (e3 i)).resolve_left hc
      have r6 : m i - m' i = 0 := by simpa using r5
      linarith
    · rintro ⟨rfl, rfl, rfl, rfl⟩
      rw [(klGam_eq_zero ha hb ha hb).2 ⟨rfl, rfl⟩, div_self hk.ne']
      simp
  | normalDiag p p' =>
    obtain ⟨m, s⟩ := p
    obtain ⟨m', s'⟩ := p'
    obtain ⟨h1, h2, h4⟩ := hp
    obtain ⟨h1', h2', h4'⟩ := hq
    obtain ⟨m, rfl⟩ := exists_ofFn _ h1
    obtain ⟨s, rfl⟩ := exists_ofFn _ h2
    obtain ⟨m', rfl⟩ := exists_ofFn _ h1'
    obtain ⟨s', rfl⟩ := exists_ofFn _ h2'
    simp only [Dist.logNorm, Dist.expStats, Dist.natural]
    rw [nd_kl_formula m s m' s' (ofFn_pos h4) (ofFn_pos h4'),
      Finset.sum_eq_zero_iff_of_nonneg fun i _ => klNorm_nonneg (ofFn_pos h4 i) (ofFn_pos h4' i)]
    simp only [Finset.mem_univ, forall_const, Dist.normalDiag.injEq, ND.mk.injEq, List.ofFn_inj]
    constructor
    · intro h0
      have := fun i => (klNorm_eq_zero (ofFn_pos h4 i) (ofFn_pos h4' i)).1 (h0 i)
      exact ⟨funext fun i => (this i).1, funext fun i => (this i).2⟩
    · rintro ⟨rfl, rfl⟩ i
      exact (klNorm_eq_zero (ofFn_pos h4 i) (ofFn_pos h4' i)).2 ⟨rfl, rfl⟩

example : klDiv (.gamma ⟨[1, 2], [1, 1]⟩) (.gamma ⟨[1, 2], [1, 3]⟩) ≠ .ok 0 := by
  have h := C39_kl_zero_iff (D := 2) (by norm_num) (.gamma ⟨[1, 2], [1, 1]⟩)
    (.gamma ⟨[1, 2], [1, 3]⟩) (by simp [Valid, GamValid]) (by simp [Valid, GamValid])
    (by constructor) (by intro c h; cases h)
  rw [Ne, h]
  simp

example : ∃ v, klDiv (.dirichlet [1, 2]) (.dirichlet [3, 1/2]) = .ok v ∧ 0 ≤ v :=
  C39_kl_nonneg (D := 2) (by norm_num) _ _ (by simp [Valid, DirValid]) (by simp [Valid, DirValid])
    (by constructor)

/-- The boundary of C39: over a single category the reported divergence is always zero, whatever
the two concentrations. -/
theorem C39_dirichlet_single (x y : ℝ) : klDiv (.dirichlet [x]) (.dirichlet [y]) = .ok 0 := by
  have h := dir_kl_formula [x] [y] rfl (by simp)
  simp only [klDiv, Dist.cls, Dist.dim, Dist.natural, Dist.expStats, Dist.logNorm, h]
  rw [if_neg (by simp), if_neg (by simp), if_neg (by simp [dirNatural, dirExpStats])]
  simp

/-- `entropy` never returns. -/
theorem entropy_always_nameError (p : Dist) : entropy p = .error .nameError := rfl

/-! ## C41 -/

/-- Meaning of `Categorical.expected_log_likelihood`: the `x`-weighted sum of the expectations
`ψ(c_i) − ψ(Σ c)` of the log weights. -/
theorem catExpLlh_eq {D : ℕ} (c x : Fin (D + 1) → ℝ) :
    catExpLlh (List.ofFn c) (List.ofFn x) = ∑ i, x i * (digamma (c i) - digamma (∑ j, c j)) := by
  have hsplit : ∀ f : Fin (D + 1) → ℝ, List.ofFn f = List.ofFn (fun i : Fin D => f i.castSucc) ++
      [f (Fin.last D)] := by
    intro f
    rw [List.ofFn_succ']
    simp
  unfold catExpLlh catStats dirExpStats
  rw [List.sum_ofFn, List.sum_ofFn, hsplit c, hsplit x, List.dropLast_concat, List.dropLast_concat,
    List.getLastD_concat, List.map_ofFn, vdot_append _ _ _ _ (by simp), vdot_ofFn]
  simp only [vdot, List.zipWith_cons_cons, List.zipWith_nil_right, List.sum_cons, List.sum_nil,
    add_zero, Function.comp]
  rw [Fin.sum_univ_castSucc, Fin.sum_univ_castSucc (fun i => x i * _)]
  have h1 : ∑ i : Fin D, x i.castSucc * (digamma (c i.castSucc) - digamma (c (Fin.last D))) =
      ∑ i : Fin D, x i.castSucc * (digamma (c i.castSucc) - digamma (∑ j, c j)) -
      (∑ i : Fin D, x i.castSucc) * (digamma (c (Fin.last D)) - digamma (∑ j, c j)) := by
    rw [Finset.sum_mul, ← Finset.sum_sub_distrib]
    apply Finset.sum_congr rfl
    intro i _
    ring
  rw [h1]
  ring

/-- C41: `Categorical.expected_log_likelihood` of soft counts `x` is the sum of the counts times the
expected log weights `ψ(c_i) − ψ(Σ c)`. -/
theorem C41_expected_log_likelihood_eq (c x : List ℝ) (hne : c ≠ []) (h : x.length = c.length) :
    catExpLlh c x = (List.zipWith (fun a b => a * (digamma b - digamma c.sum)) x c).sum := by
  obtain ⟨D, hD⟩ : ∃ D, c.length = D + 1 := ⟨c.length - 1, by
    have := List.length_pos_iff.2 hne; omega⟩
  obtain ⟨c, rfl⟩ := exists_ofFn c hD
  obtain ⟨x, rfl⟩ := exists_ofFn x (h.trans hD)
  rw [catExpLlh_eq, zipWith_ofFn, List.sum_ofFn, List.sum_ofFn]

/-- C41: the exponentials of the expected log weights of the categories sum to at most one, and to
strictly less than one as soon as there are two categories. -/
theorem C41_expected_log_weights_subnormalised (c : List ℝ) (hpos : ∀ x ∈ c, 0 < x) :
    (List.ofFn fun i : Fin c.length => exp (catExpLlh c (oneHot c.length i))).sum ≤ 1 ∧
    (2 ≤ c.length →
      (List.ofFn fun i : Fin c.length => exp (catExpLlh c (oneHot c.length i))).sum < 1) := by
  rcases Nat.eq_zero_or_pos c.length with h0 | hlen
  · have : c = [] := List.length_eq_zero_iff.1 h0
    subst this
    simp
  obtain ⟨D, hD⟩ : ∃ D, c.length = D + 1 := ⟨c.length - 1, by omega⟩
  obtain ⟨f, hf⟩ := exists_ofFn c hD
  clear hlen
  have key : ∀ n (e : c.length = n), (List.ofFn fun i : Fin c.length =>
      exp (catExpLlh c (oneHot c.length i))).sum =
      ∑ i : Fin n, exp (catExpLlh c (oneHot n i)) := by
    intro n e
    subst e
    rw [List.sum_ofFn]
  rw [key (D + 1) hD, hD]
  clear key hD
  subst hf
  have hfp := fun i => ofFn_pos hpos i
  have hS : 0 < ∑ j, f j := Finset.sum_pos (fun i _ => hfp i) Finset.univ_nonempty
  have e1 : ∀ i, catExpLlh (List.ofFn f) (oneHot (D + 1) i) = digamma (f i) - digamma (∑ j, f j) := by
    intro i
    unfold oneHot
    rw [catExpLlh_eq]
    simp
  simp only [e1]
  have hle : ∀ i, f i ≤ ∑ j, f j := fun i =>
    Finset.single_le_sum (f := f) (fun j _ => (hfp j).le) (Finset.mem_univ i)
  have e2 : ∀ i, exp (log (f i) - log (∑ j, f j)) = f i / ∑ j, f j := by
    intro i
    rw [exp_sub, exp_log (hfp i), exp_log hS]
  have e3 : ∑ i, f i / ∑ j, f j = 1 := by
    rw [← Finset.sum_div, div_self hS.ne']
  have b : ∀ i, exp (digamma (f i) - digamma (∑ j, f j)) ≤ f i / ∑ j, f j := by
    intro i
    rw [← e2]
    exact exp_le_exp.2 (digamma_sub_le (hfp i) (hle i))
  refine ⟨e3 ▸ Finset.sum_le_sum fun i _ => b i, ?_⟩
  intro h2
  rw [← e3]
  refine Finset.sum_lt_sum (fun i _ => b i) ⟨0, Finset.mem_univ _, ?_⟩
  rw [← e2]
  apply exp_lt_exp.2
  have hlt : f 0 < ∑ j, f j := by
    obtain ⟨E, rfl⟩ : ∃ E, D = E + 1 := ⟨D - 1, by omega⟩
    rw [Fin.sum_univ_succ]
    have : 0 < ∑ j : Fin (E + 1), f j.succ :=
      Finset.sum_pos (fun i _ => hfp _) Finset.univ_nonempty
    linarith
  have := gapFn_strictAnti (hfp 0) hlt
  simp only [gapFn] at this
  linarith

/-- C41: the mean weights `Dirichlet.expected_value` are positive, sum to one, and bound the
exponentials of the expected log weights. -/
theorem C41_mean_weights {D : ℕ} (f : Fin (D + 1) → ℝ) (hpos : ∀ i, 0 < f i) :
    (dirMean (List.ofFn f)).sum = 1 ∧ (∀ m ∈ dirMean (List.ofFn f), 0 < m) ∧
    ∀ i : Fin (D + 1), exp (catExpLlh (List.ofFn f) (oneHot (D + 1) i)) ≤
      (dirMean (List.ofFn f)).getD i 0 := by
  have hS : 0 < ∑ j, f j := Finset.sum_pos (fun i _ => hpos i) Finset.univ_nonempty
  have hm : dirMean (List.ofFn f) = List.ofFn fun i => f i / ∑ j, f j := by
    unfold dirMean
    rw [List.sum_ofFn, List.map_ofFn]
    rfl
  refine ⟨?_, ?_, ?_⟩
  · rw [hm, List.sum_ofFn, ← Finset.sum_div, div_self hS.ne']
  · intro m h
    rw [hm, List.mem_ofFn] at h
    obtain ⟨i, rfl⟩ := h
    exact div_pos (hpos i) hS
  · intro i
    have e1 : catExpLlh (List.ofFn f) (oneHot (D + 1) i) = digamma (f i) - digamma (∑ j, f j) := by
      unfold oneHot
      rw [catExpLlh_eq]
      simp
    have e2 : (dirMean (List.ofFn f)).getD i 0 = f i / ∑ j, f j := by
      rw [hm, List.getD_eq_getElem _ _ (by rw [List.length_ofFn]; exact i.isLt), List.getElem_ofFn]
    rw [e1, e2, ← exp_log (div_pos (hpos i) hS), log_div (hpos i).ne' hS.ne']
    exact exp_le_exp.2 (digamma_sub_le (hpos i) (Finset.single_le_sum (f := f)
      (fun j _ => (hpos j).le) (Finset.mem_univ i)))

example : (dirMean (List.ofFn ![(1 : ℝ), 3])).sum = 1 :=
  (C41_mean_weights ![1, 3] (by intro i; fin_cases i <;> simp)).1

example : (List.ofFn fun i : Fin 2 => exp (catExpLlh [1, 3] (oneHot 2 i))).sum < 1 :=
  (C41_expected_log_weights_subnormalised [1, 3] (by simp)).2 (by simp)

end Verif.Props
