import Verif.Model.SymPosDef
import Verif.Spec.SymPosDef
import Mathlib.LinearAlgebra.Matrix.NonsingularInverse
import Mathlib.Analysis.Matrix.Spectrum
import Mathlib.Data.Fin.Tuple.Sort
import Mathlib.Tactic

/-!
# Enforced symmetric positive definite matrices (C65)
-/

namespace Verif.Props

open Verif Verif.SymPosDef Verif.Spec Matrix

variable {n : ℕ}

lemma eig_conj_iff (V : Matrix (Fin n) (Fin n) ℝ) (hV : V.transpose * V = 1) (d : Fin n → ℝ)
    (μ : ℝ) : IsEig (V * Matrix.diagonal d * V.transpose) μ ↔ ∃ i, d i = μ := by
  have hV' : V * V.transpose = 1 := mul_eq_one_comm.1 hV
  constructor
  · rintro ⟨v, hv, he⟩
    have hw : V.transpose *ᵥ v ≠ 0 := by
      intro h
      apply hv
      have := congrArg (fun w => V *ᵥ w) h
      simpa [Matrix.mulVec_mulVec, hV'] using this
    have h2 : Matrix.diagonal d *ᵥ (V.transpose *ᵥ v) = μ • (V.transpose *ᵥ v) := by
      have := congrArg (fun w => V.transpose *ᵥ w) he
      simp only [Matrix.mulVec_mulVec, Matrix.mulVec_smul] at this
      rw [← Matrix.mul_assoc, ← Matrix.mul_assoc, hV, Matrix.one_mul] at this
      simpa [Matrix.mulVec_mulVec] using this
    obtain ⟨i, hi⟩ := Function.ne_iff.1 hw
    refine ⟨i, ?_⟩
    have := congrFun h2 i
    rw [Matrix.mulVec_diagonal] at this
    simp only [Pi.smul_apply, smul_eq_mul] at this
    exact mul_right_cancel₀ hi this
  · rintro ⟨i, rfl⟩
    refine ⟨V *ᵥ Pi.single i 1, ?_, ?_⟩
    · intro h
      have := congrArg (fun w => V.transpose *ᵥ w) h
      simp only [Matrix.mulVec_mulVec, hV, Matrix.one_mulVec, Matrix.mulVec_zero] at this
      have h3 := congrFun this i
      simp at h3
    · rw [Matrix.mulVec_mulVec, Matrix.mul_assoc, hV, Matrix.mul_one, ← Matrix.mulVec_mulVec,
        Matrix.mulVec_single_one, ← Matrix.mulVec_smul]
      congr 1
      funext j
      by_cases h : j = i
      · subst h; simp [Matrix.col_apply]
      · simp [Matrix.col_apply, h]

lemma quad_conj (V : Matrix (Fin n) (Fin n) ℝ) (d : Fin n → ℝ) (x : Fin n → ℝ) :
    x ⬝ᵥ ((V * Matrix.diagonal d * V.transpose) *ᵥ x) = ∑ i, d i * (V.transpose *ᵥ x) i ^ 2 := by
  rw [← Matrix.mulVec_mulVec, ← Matrix.mulVec_mulVec, Matrix.dotProduct_mulVec,
    ← Matrix.mulVec_transpose]
  simp only [dotProduct, Matrix.mulVec_diagonal]
  exact Finset.sum_congr rfl fun i _ => by ring

lemma quad_self (V : Matrix (Fin n) (Fin n) ℝ) (hV : V.transpose * V = 1) (x : Fin n → ℝ) :
    x ⬝ᵥ x = ∑ i, (V.transpose *ᵥ x) i ^ 2 := by
  have hV' : V * V.transpose = 1 := mul_eq_one_comm.1 hV
  have := quad_conj V (fun _ => 1) x
  rw [Matrix.diagonal_one, Matrix.mul_one, hV', Matrix.one_mulVec] at this
  rw [this]; simp

lemma contract_conj {A : Matrix (Fin n) (Fin n) ℝ} {r} (h : EigContract A r) :
    A = r.2 * Matrix.diagonal r.1 * r.2.transpose := by
  rw [← h.eigen, Matrix.mul_assoc, mul_eq_one_comm.1 h.orthonormal, Matrix.mul_one]

lemma contract_isEig {A : Matrix (Fin n) (Fin n) ℝ} {r} (h : EigContract A r) (i : Fin n) :
    IsEig A (r.1 i) := by
  have := (eig_conj_iff r.2 h.orthonormal r.1 (r.1 i)).2 ⟨i, rfl⟩
  rwa [← contract_conj h] at this

lemma contract_last {A : Matrix (Fin n) (Fin n) ℝ} {r} (h : EigContract A r) {l : ℝ}
    (hl : IsMaxEig A l) (hn : 0 < n) : r.1 ⟨n - 1, by omega⟩ = l := by
  have hc := contract_conj h
  obtain ⟨h1, h2⟩ := hl
  apply le_antisymm
  · apply h2; rw [hc, eig_conj_iff _ h.orthonormal]; exact ⟨_, rfl⟩
  · rw [hc, eig_conj_iff _ h.orthonormal] at h1
    obtain ⟨i, rfl⟩ := h1
    exact h.ascending _ _ (Fin.le_def.2 (by have := i.isLt; simp only; omega))

lemma isEig_pos {A : Matrix (Fin n) (Fin n) ℝ} {l : ℝ} (h : IsEig A l) : 0 < n := by
  obtain ⟨v, hv, _⟩ := h
  rcases Nat.eq_zero_or_pos n with h | h
  · subst h; exact absurd (Subsingleton.elim v 0) hv
  · exact h

lemma makeSymposdef_eq (symeig : Matrix (Fin n) (Fin n) ℝ → (Fin n → ℝ) × Matrix (Fin n) (Fin n) ℝ)
    (thr : ℝ) (m : Matrix (Fin n) (Fin n) ℝ) (he : EigContract (symmetrize m) (symeig (symmetrize m)))
    {l : ℝ} (hl : IsMaxEig (symmetrize m) l) :
    makeSymposdef symeig thr m = .ok ((symeig (symmetrize m)).2 * Matrix.diagonal
      (fun i => max ((symeig (symmetrize m)).1 i) (thr * l)) * (symeig (symmetrize m)).2.transpose) := by
  have hn := isEig_pos hl.1
  unfold makeSymposdef
  dsimp only
  rw [dif_pos hn, contract_last he hl hn]
  congr 4
  funext i
  split
  · rename_i h; rw [max_eq_right h.le]
  · rename_i h; rw [max_eq_left (not_lt.1 h)]

/-- **C65 (symmetric, eigenvalue floor).** Whatever the matrix and the threshold, if the eigensolver
fulfils its contract the returned matrix is symmetric, each of its eigenvalues is at least the
threshold times the largest eigenvalue `l` of the symmetrised input, and its quadratic form is bounded
below accordingly. -/
theorem C65_floor (symeig : Matrix (Fin n) (Fin n) ℝ → (Fin n → ℝ) × Matrix (Fin n) (Fin n) ℝ)
    (thr : ℝ) (m : Matrix (Fin n) (Fin n) ℝ) (he : EigContract (symmetrize m) (symeig (symmetrize m)))
    (l : ℝ) (hl : IsMaxEig (symmetrize m) l) :
    ∃ r, makeSymposdef symeig thr m = .ok r ∧ (∀ i j, r i j = r j i) ∧
      (∀ μ, IsEig r μ → thr * l ≤ μ) ∧ ∀ x, thr * l * (x ⬝ᵥ x) ≤ x ⬝ᵥ (r *ᵥ x) := by
  refine ⟨_, makeSymposdef_eq symeig thr m he hl, ?_, ?_, ?_⟩
  · intro i j
    have : ∀ (V : Matrix (Fin n) (Fin n) ℝ) (d : Fin n → ℝ),
        (V * Matrix.diagonal d * V.transpose).transpose = V * Matrix.diagonal d * V.transpose := by
      intro V d
      rw [Matrix.transpose_mul, Matrix.transpose_mul, Matrix.transpose_transpose,
        Matrix.diagonal_transpose, Matrix.mul_assoc]
    conv_lhs => rw [← this]
    rfl
  · intro μ hμ
    rw [eig_conj_iff _ he.orthonormal] at hμ
    obtain ⟨i, rfl⟩ := hμ
    exact le_max_right _ _
  · intro x
    rw [quad_conj, quad_self _ he.orthonormal, Finset.mul_sum]
    exact Finset.sum_le_sum fun i _ => mul_le_mul_of_nonneg_right (le_max_right _ _) (sq_nonneg _)

/-- **C65 (positive definite).** With a positive threshold and a positive largest eigenvalue the
returned matrix is positive definite. -/
theorem C65_posdef (symeig : Matrix (Fin n) (Fin n) ℝ → (Fin n → ℝ) × Matrix (Fin n) (Fin n) ℝ)
    (thr : ℝ) (m : Matrix (Fin n) (Fin n) ℝ) (he : EigContract (symmetrize m) (symeig (symmetrize m)))
    (l : ℝ) (hl : IsMaxEig (symmetrize m) l) (hthr : 0 < thr) (hpos : 0 < l) :
    ∃ r, makeSymposdef symeig thr m = .ok r ∧ ∀ x, x ≠ 0 → 0 < x ⬝ᵥ (r *ᵥ x) := by
  obtain ⟨r, h1, _, _, h4⟩ := C65_floor symeig thr m he l hl
  refine ⟨r, h1, fun x hx => lt_of_lt_of_le ?_ (h4 x)⟩
  have : 0 < x ⬝ᵥ x := by
    obtain ⟨i, hi⟩ := Function.ne_iff.1 hx
    refine Finset.sum_pos' (fun j _ => mul_self_nonneg _) ⟨i, Finset.mem_univ _, ?_⟩
    exact mul_self_pos.2 hi
  positivity

/-- **C65 (unchanged).** When every eigenvalue of the symmetrised input already reaches the floor the
symmetrised input is returned as it is. -/
theorem C65_unchanged (symeig : Matrix (Fin n) (Fin n) ℝ → (Fin n → ℝ) × Matrix (Fin n) (Fin n) ℝ)
    (thr : ℝ) (m : Matrix (Fin n) (Fin n) ℝ) (he : EigContract (symmetrize m) (symeig (symmetrize m)))
    (l : ℝ) (hl : IsMaxEig (symmetrize m) l) (hall : ∀ μ, IsEig (symmetrize m) μ → thr * l ≤ μ) :
    makeSymposdef symeig thr m = .ok (symmetrize m) := by
  rw [makeSymposdef_eq symeig thr m he hl]
  have hc := contract_conj he
  congr 1
  conv_rhs => rw [hc]
  congr 3
  funext i
  apply max_eq_left
  exact hall _ (contract_isEig he i)

/-- **C65 (unchanged, symmetric input).** In particular a symmetric matrix whose eigenvalues reach the
floor is returned as it is. -/
theorem C65_unchanged_symmetric
    (symeig : Matrix (Fin n) (Fin n) ℝ → (Fin n → ℝ) × Matrix (Fin n) (Fin n) ℝ)
    (thr : ℝ) (m : Matrix (Fin n) (Fin n) ℝ) (he : ∀ A, (∀ i j, A i j = A j i) → EigContract A (symeig A))
    (hm : ∀ i j, m i j = m j i) (l : ℝ) (hl : IsMaxEig m l)
    (hall : ∀ μ, IsEig m μ → thr * l ≤ μ) :
    makeSymposdef symeig thr m = .ok m := by
  have hs : symmetrize m = m := by
    funext i j; unfold symmetrize; rw [hm j i]; ring
  have := C65_unchanged symeig thr m (by rw [hs]; exact he m hm) l (by rwa [hs]) (by rwa [hs])
  rwa [hs] at this

/-- **C65 (idempotent).** With a threshold at most one and a non-negative largest eigenvalue, applying
the function to its result changes nothing. -/
theorem C65_idempotent
    (symeig : Matrix (Fin n) (Fin n) ℝ → (Fin n → ℝ) × Matrix (Fin n) (Fin n) ℝ)
    (thr : ℝ) (m : Matrix (Fin n) (Fin n) ℝ) (he : ∀ A, (∀ i j, A i j = A j i) → EigContract A (symeig A))
    (l : ℝ) (hl : IsMaxEig (symmetrize m) l) (hthr : thr ≤ 1) (hpos : 0 ≤ l)
    (r : Matrix (Fin n) (Fin n) ℝ) (hr : makeSymposdef symeig thr m = .ok r) :
    makeSymposdef symeig thr r = .ok r := by
  have hsym : ∀ i j, symmetrize m i j = symmetrize m j i := by
    intro i j; unfold symmetrize; ring
  have hc := he _ hsym
  obtain ⟨r', h1, h2, h3, _⟩ := C65_floor symeig thr m hc l hl
  rw [hr] at h1
  cases h1
  rw [makeSymposdef_eq symeig thr m hc hl] at hr
  cases hr
  have hle : thr * l ≤ l := by nlinarith
  have hb : ∀ μ, IsEig ((symeig (symmetrize m)).2 * Matrix.diagonal
      (fun i => max ((symeig (symmetrize m)).1 i) (thr * l)) * (symeig (symmetrize m)).2.transpose) μ →
      μ ≤ l := by
    intro μ hμ
    rw [eig_conj_iff _ hc.orthonormal] at hμ
    obtain ⟨i, rfl⟩ := hμ
    refine max_le ?_ hle
    exact hl.2 _ (contract_isEig hc i)
  refine C65_unchanged_symmetric symeig thr _ he h2 l ⟨?_, hb⟩ h3
  have h5 := hl.1
  rw [contract_conj hc, eig_conj_iff _ hc.orthonormal] at h5
  obtain ⟨i, hi⟩ := h5
  rw [eig_conj_iff _ hc.orthonormal]
  exact ⟨i, by rw [hi]; exact max_eq_left hle⟩

/-- **C65 (scope).** When the largest eigenvalue is not positive the result is *not* positive
definite: the function then does not do what its documentation says. -/
theorem C65_not_posdef (symeig : Matrix (Fin n) (Fin n) ℝ → (Fin n → ℝ) × Matrix (Fin n) (Fin n) ℝ)
    (thr : ℝ) (m : Matrix (Fin n) (Fin n) ℝ) (he : EigContract (symmetrize m) (symeig (symmetrize m)))
    (l : ℝ) (hl : IsMaxEig (symmetrize m) l) (hthr : 0 ≤ thr) (hneg : l ≤ 0) :
    ∃ r, makeSymposdef symeig thr m = .ok r ∧ ∀ x, x ⬝ᵥ (r *ᵥ x) ≤ 0 := by
  refine ⟨_, makeSymposdef_eq symeig thr m he hl, fun x => ?_⟩
  rw [quad_conj]
  refine Finset.sum_nonpos fun i _ => mul_nonpos_of_nonpos_of_nonneg (max_le ?_ ?_) (sq_nonneg _)
  · exact le_trans (hl.2 _ (contract_isEig he i)) hneg
  · exact mul_nonpos_of_nonneg_of_nonpos hthr hneg

/-- **C65 (error branch).** The empty matrix raises `IndexError`. -/
theorem C65_empty (symeig : Matrix (Fin 0) (Fin 0) ℝ → (Fin 0 → ℝ) × Matrix (Fin 0) (Fin 0) ℝ)
    (thr : ℝ) (m : Matrix (Fin 0) (Fin 0) ℝ) : makeSymposdef symeig thr m = .error .indexError := by
  unfold makeSymposdef
  dsimp only
  rw [dif_neg (by omega)]

/-- A solver fulfilling the contract on every symmetric matrix exists, in every dimension: the
hypotheses on the solver above can be met. -/
lemma exists_symeig (n : ℕ) :
    ∃ symeig : Matrix (Fin n) (Fin n) ℝ → (Fin n → ℝ) × Matrix (Fin n) (Fin n) ℝ,
      ∀ A, (∀ i j, A i j = A j i) → EigContract A (symeig A) := by
  have key : ∀ A : Matrix (Fin n) (Fin n) ℝ, (∀ i j, A i j = A j i) → ∃ r, EigContract A r := by
    intro A hA
    have hH : A.IsHermitian := by
      ext i j; simp [Matrix.conjTranspose_apply, hA j i]
    set U : Matrix (Fin n) (Fin n) ℝ := (hH.eigenvectorUnitary : Matrix (Fin n) (Fin n) ℝ) with hU
    have hUU : U.transpose * U = 1 := by
      have := (Matrix.mem_unitaryGroup_iff'.1 hH.eigenvectorUnitary.2)
      simpa [Matrix.star_eq_conjTranspose] using this
    set σ := Tuple.sort hH.eigenvalues with hσ
    refine ⟨(fun i => hH.eigenvalues (σ i), fun i j => U i (σ j)), ?_, ?_, ?_⟩
    · intro i j hij
      exact Tuple.monotone_sort hH.eigenvalues hij
    · ext j k
      have := congrFun (congrFun hUU (σ j)) (σ k)
      simp only [Matrix.mul_apply, Matrix.transpose_apply, Matrix.one_apply,
        EmbeddingLike.apply_eq_iff_eq] at this ⊢
      exact this
    · ext i j
      rw [Matrix.mul_diagonal, Matrix.mul_apply]
      have := congrFun (hH.mulVec_eigenvectorBasis (σ j)) i
      simp only [Matrix.mulVec, dotProduct, Pi.smul_apply, smul_eq_mul] at this
      rw [mul_comm]
      exact this
  classical
  refine ⟨fun A => if h : ∀ i j, A i j = A j i then (key A h).choose else (0, 0), fun A hA => ?_⟩
  dsimp only
  rw [dif_pos hA]
  exact (key A hA).choose_spec

/-- An indefinite matrix, already diagonal: eigenvalues `-1` and `2`. -/
def demoMat : Matrix (Fin 2) (Fin 2) ℝ := Matrix.diagonal ![-1, 2]

lemma demo_sym : symmetrize demoMat = demoMat := by
  funext i j
  unfold symmetrize demoMat
  by_cases h : i = j
  · subst h; ring
  · rw [Matrix.diagonal_apply_ne _ h, Matrix.diagonal_apply_ne _ (Ne.symm h)]; ring

lemma demo_contract : EigContract (symmetrize demoMat) (![-1, 2], (1 : Matrix (Fin 2) (Fin 2) ℝ)) where
  ascending := by
    intro i j h
    fin_cases i <;> fin_cases j <;> simp_all
    norm_num
  orthonormal := by simp
  eigen := by rw [demo_sym]; simp [demoMat]

lemma demo_max : IsMaxEig (symmetrize demoMat) 2 := by
  have h : ∀ μ, IsEig (symmetrize demoMat) μ ↔ ∃ i, (![-1, 2] : Fin 2 → ℝ) i = μ := by
    intro μ
    rw [contract_conj demo_contract]
    exact eig_conj_iff _ demo_contract.orthonormal _ μ
  refine ⟨(h 2).2 ⟨1, rfl⟩, fun ν hν => ?_⟩
  obtain ⟨i, rfl⟩ := (h ν).1 hν
  fin_cases i <;> simp
  norm_num

-- the indefinite matrix becomes positive definite
example : ∃ r, makeSymposdef (fun _ => (![-1, 2], 1)) (1 / 10) demoMat = .ok r ∧
    ∀ x, x ≠ 0 → 0 < x ⬝ᵥ (r *ᵥ x) :=
  C65_posdef _ _ _ demo_contract 2 demo_max (by norm_num) (by norm_num)

end Verif.Props
