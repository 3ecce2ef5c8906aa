import Verif.Lemmas.EvidenceWishart

/-!
# C166: the evidence of Normal models with full covariance

The statements hold for every way `root` of factorising the scale matrices.
-/

namespace Verif.Props

open Real MeasureTheory ProbabilityTheory Verif.Dists Verif.DistSpec Verif.Spec Verif.VB
open scoped ENNReal Matrix

/-- C166: Normal models with full covariance. -/
theorem C166_exact_full {D : ℕ} (root : (Σ D : ℕ, NW D) → Matrix (Fin D) (Fin D) ℝ)
    (hroot : IsRoot D root) :
    ExactEvidence (nwFam D) (NWValidD D) (fun _ => True) (nwGen D root) :=
  exact_evidence nwConj (nw_marg root hroot) fun _ h => h

/-- C166: sets of Normal models with full covariance. -/
theorem C166_normalset_full {D : ℕ} (root : (Σ D : ℕ, NW D) → Matrix (Fin D) (Fin D) ℝ)
    (hroot : IsRoot D root) (M : ℕ) :
    Bounds (familySet (nwFam D) M) (SetValid (NWValidD D)) (fun _ => True)
      (familyGen (nwGen D root) M) :=
  familySet_bounds nwConj (nw_marg root hroot) (fun _ h => h) M

/-- The scale matrices have factors: Cholesky's. -/
theorem isRoot_exists (D : ℕ) : ∃ root, IsRoot D root := by
  classical
  refine ⟨fun p => if h : ∃ L : Matrix (Fin D) (Fin D) ℝ, ∃ e : p.1 = D, L * Lᵀ = e ▸ p.2.W then h.choose
    else 1, fun p hp => ?_⟩
  obtain ⟨L, hL⟩ := exists_cholesky _ hp
  have h : ∃ L : Matrix (Fin D) (Fin D) ℝ, ∃ e : D = D, L * Lᵀ = e ▸ p.W :=
    ⟨L, rfl, cholesky_mul _ _ (posDef_isSymm hp) hL⟩
  dsimp only
  rw [dif_pos h]
  obtain ⟨_, h2⟩ := h.choose_spec
  exact h2

example : ∃ root, ExactEvidence (nwFam 2) (NWValidD 2) (fun _ => True) (nwGen 2 root) := by
  obtain ⟨root, h⟩ := isRoot_exists 2
  exact ⟨root, C166_exact_full root h⟩

/-- A state to which the statements apply. -/
example : ParamValid (NWValidD 2) ⟨⟨2, ⟨![0, 0], 1, 1, 3⟩⟩, ⟨2, ⟨![1, -1], 5, 1, 4⟩⟩⟩ :=
  ⟨⟨rfl, by norm_num, Matrix.PosDef.one, by norm_num⟩, ⟨rfl, by norm_num, Matrix.PosDef.one, by norm_num⟩⟩

/-- Ten components in dimension three, as needed by the statements on two mixtures of five. -/
example : ∃ (G : SetGen _ (Fin 3 → ℝ) (2 * 5)), Bounds (familySet (nwFam 3) (2 * 5))
    (SetValid (NWValidD 3)) (fun _ => True) G := by
  obtain ⟨root, h⟩ := isRoot_exists 3
  exact ⟨_, C166_normalset_full root h (2 * 5)⟩

end Verif.Props
