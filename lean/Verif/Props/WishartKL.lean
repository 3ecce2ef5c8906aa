import Verif.Lemmas.WishartKL
import Verif.Props.NormalWishart

/-!
# C85: KL divergence between Normal-Wishart distributions
-/

namespace Verif.Props

open Matrix Verif.Dists Verif.DistSpec

/-- C85: for valid parameters of the same dimension `kl_div` returns a number, which is never
negative. -/
theorem C85_wishart_kl_nonneg {D : ℕ} (p q : NW D) (hp : NWValid p) (hq : NWValid q) :
    ∃ v, nwKl p q = .ok v ∧ 0 ≤ v :=
  ⟨_, nwKl_eq p q hp hq, nwKlVal_nonneg p q hp hq⟩

/-- C85: the divergence is zero for equal distributions only. -/
theorem C85_wishart_kl_zero_iff {D : ℕ} (hD : 1 ≤ D) (p q : NW D) (hp : NWValid p) (hq : NWValid q) :
    nwKl p q = .ok 0 ↔ p = q := by
  rw [nwKl_eq p q hp hq]
  constructor
  · intro h
    exact nwKlVal_eq_zero p q hp hq hD (Except.ok.inj h)
  · rintro rfl
    rw [nwKlVal_self]

example : NWValid (⟨![1, -3], 1 / 2, 1, 5⟩ : NW 2) ∧ NWValid (⟨![0, 0], 1, 1, 2⟩ : NW 2) :=
  ⟨⟨by norm_num, PosDef.one, by norm_num⟩, ⟨by norm_num, PosDef.one, by norm_num⟩⟩

/-- C85: the expected statistics are the slope of the log-normaliser: it lies above its tangent at
every valid parameter. -/
theorem C85_wishart_tangent {D : ℕ} (p q : NW D) (hp : NWValid p) (hq : NWValid q) :
    ∃ n n' t a a', nwNatural p = .ok n ∧ nwNatural q = .ok n' ∧ nwExpStats p = .ok t ∧
      nwLogNorm p = .ok a ∧ nwLogNorm q = .ok a' ∧ a + vdot t (vsub n' n) ≤ a' := by
  refine ⟨_, _, _, _, _, nwNatural_eq p hp, nwNatural_eq q hq, nwExpStats_eq p hp, nwLogNorm_eq p hp,
    nwLogNorm_eq q hq, ?_⟩
  have := nwKlVal_nonneg p q hp hq
  unfold nwKlVal at this
  linarith

/-- C85, error branch: different dimensions. -/
theorem C85_wishart_dim_mismatch {D D' : ℕ} (h : D ≠ D') (p : NW D) (q : NW D') :
    nwKl p q = .error .dimMismatch := by
  unfold nwKl
  rw [if_pos h]

example : nwKl (⟨![1, -3], 1 / 2, 1, 5⟩ : NW 2) (⟨![0], 1, 1, 2⟩ : NW 1) = .error .dimMismatch :=
  C85_wishart_dim_mismatch (by decide) _ _

/-- A matrix with a Cholesky factor is positive definite. -/
theorem cholesky_posDef {D : ℕ} (W L : Matrix (Fin D) (Fin D) ℝ) (hW : W.IsSymm)
    (h : IsCholesky W L) : W.PosDef := by
  have e := cholesky_mul W L hW h
  have hdet : L.det ≠ 0 := by
    rw [det_of_isLowerTriangular L (fun i j hij => h.1 i j hij)]
    exact (Finset.prod_pos fun i _ => h.2.1 i).ne'
  rw [← e, ← conjTranspose_eq_transpose_of_trivial]
  refine PosDef.mul_conjTranspose_self L ?_
  exact vecMul_injective_of_isUnit ((isUnit_iff_isUnit_det L).2 (isUnit_iff_ne_zero.2 hdet))

/-- C85, error branch: when the scale matrix of one of the two (symmetric) is not positive definite,
the divergence raises `RuntimeError`, whatever the other parameters. -/
theorem C85_wishart_not_posDef {D : ℕ} (p q : NW D)
    (hs : (p.W.IsSymm ∧ ¬ p.W.PosDef) ∨ (q.W.IsSymm ∧ ¬ q.W.PosDef)) :
    nwKl p q = .error .runtimeError := by
  have key : ∀ r : NW D, r.W.IsSymm → ¬ r.W.PosDef → nwLogNorm r = .error .runtimeError ∧
      nwExpStats r = .error .runtimeError := by
    intro r h1 h2
    have : nwLogdet r.W = .error .runtimeError := by
      unfold nwLogdet tcholesky
      rw [dif_neg]
      rintro ⟨L, hL⟩
      exact h2 (cholesky_posDef _ _ h1 hL)
    exact ⟨by simp only [nwLogNorm, this], by simp only [nwExpStats, this]⟩
  have hn : ∀ r : NW D, nwNatural r = .error .runtimeError ∨ ∃ n, nwNatural r = .ok n := by
    intro r
    cases h : nwNatural r with
    | ok n => exact .inr ⟨n, rfl⟩
    | error e =>
      left
      rw [((C37_natural_error_iff r e).1 h).2]
  have he : ∀ r : NW D, (nwExpStats r = .error .runtimeError ∧ nwLogNorm r = .error .runtimeError) ∨
      ∃ t a, nwExpStats r = .ok t ∧ nwLogNorm r = .ok a := by
    intro r
    unfold nwExpStats nwLogNorm nwLogdet tcholesky
    by_cases h : ∃ L, IsCholesky r.W L
    · rw [dif_pos h]; exact .inr ⟨_, _, rfl, rfl⟩
    · rw [dif_neg h]; exact .inl ⟨rfl, rfl⟩
  unfold nwKl
  rw [if_neg (by simp)]
  rcases hn p with h | ⟨n, h⟩ <;> rw [h]
  · rfl
  rcases hn q with h' | ⟨n', h'⟩ <;> rw [h']
  · rfl
  rcases hs with ⟨h1, h2⟩ | ⟨h1, h2⟩
  · rw [(key p h1 h2).2]; rfl
  · rcases he p with ⟨h3, _⟩ | ⟨t, a, h3, h4⟩
    · rw [h3]; rfl
    · rw [h3, h4, (key q h1 h2).1]; rfl

example : (!![1, 0; 0, -1] : Matrix (Fin 2) (Fin 2) ℝ).IsSymm ∧
    ¬ (!![1, 0; 0, -1] : Matrix (Fin 2) (Fin 2) ℝ).PosDef := by
  refine ⟨?_, fun h => ?_⟩
  · ext i j; fin_cases i <;> fin_cases j <;> rfl
  · have := h.det_pos
    rw [det_fin_two_of] at this
    norm_num at this

end Verif.Props
