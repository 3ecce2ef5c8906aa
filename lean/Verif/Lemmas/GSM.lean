import Mathlib.Tactic.Ring
import Mathlib.Algebra.BigOperators.Fin
import Verif.Spec.GSM
import Verif.Props.VAE

/-!
# Helper lemmas for the subspace models: layouts
-/

namespace Verif.GSM

open Verif.GSMSpec Verif.Dists Verif.DistSpec Real

theorem merge_pair {α : Type*} {A B : ℕ} (x : Fin A → Fin B → α) (a : Fin A) (b : Fin B) :
    merge x (finProdFinEquiv (a, b)) = x a b := by
  have h := finProdFinEquiv.symm_apply_apply (a, b)
  have h1 : (finProdFinEquiv (a, b)).divNat = a := congrArg Prod.fst h
  have h2 : (finProdFinEquiv (a, b)).modNat = b := congrArg Prod.snd h
  unfold merge
  rw [h1, h2]

theorem pair_val {A B : ℕ} (a : Fin A) (b : Fin B) :
    (finProdFinEquiv (a, b)).1 = a.1 * B + b.1 := by
  rw [finProdFinEquiv_apply_val]
  ring

theorem eq_pair {A B : ℕ} (a : Fin A) (b : Fin B) (k : Fin (A * B)) (hk : k.1 = a.1 * B + b.1) :
    k = finProdFinEquiv (a, b) := Fin.ext (by rw [hk, pair_val])

theorem split_matrixOf {I R : ℕ} (w : Fin (I * R) → ℝ) (i : Fin I) (r : Fin R) :
    split w i r = matrixOf w i r := by
  unfold split matrixOf
  rw [Matrix.of_apply]
  congr 1
  exact Fin.ext (pair_val i r)

theorem affineRow_eq {I O : ℕ} (w : Fin (I * O) → ℝ) (b : Fin O → ℝ) (x : Fin I → ℝ) :
    affineRow w b x = superVector (matrixOf w) b x := by
  funext o
  unfold affineRow superVector
  rw [Pi.add_apply]
  congr 1
  rw [Matrix.mulVec, dotProduct]
  refine Finset.sum_congr rfl fun i _ => ?_
  rw [split_matrixOf, Matrix.transpose_apply, mul_comm]

theorem mldc_sample {D : ℕ} (p : MLDC D) (e : Fin D → ℝ) :
    p.sample e = drawn p.mean p.diagCov e := by
  funext d
  unfold MLDC.sample MLDC.nd ndSample drawn
  rw [zipWith_ofFn, zipWith_ofFn, List.getD_eq_getElem _ _ (by simp)]
  simp

theorem forward_eq {I O M P : ℕ} (t : Affine I O) (epsW : Fin P → Fin (I * O) → ℝ)
    (epsB : Fin P → Fin O → ℝ) (X : Fin M → Fin I → ℝ) (m : Fin M) (p : Fin P) :
    t.forward epsW epsB X m p = superVector
      (matrixOf (drawn t.postW.mean t.postW.diagCov (epsW p)))
      (drawn t.postB.mean t.postB.diagCov (epsB p)) (X m) := by
  unfold Affine.forward
  dsimp only
  rw [affineRow_eq, mldc_sample, mldc_sample]

theorem linear_eq {I O M P : ℕ} (q : MLDC (I * O)) (epsW : Fin P → Fin (I * O) → ℝ)
    (X : Fin M → Fin I → ℝ) (m : Fin M) (p : Fin P) :
    linearForward q epsW X m p =
      superVector (matrixOf (drawn q.mean q.diagCov (epsW p))) 0 (X m) := by
  rw [← affineRow_eq]
  funext o
  unfold linearForward affineRow
  simp only [mldc_sample, Pi.zero_apply, add_zero]

/-- The super-vector number `l * P + p` of model `n` is the transform `p` of its sample `l`. -/
theorem rvecs_eq {N L P I R : ℕ}
    (transform : (Fin (N * L) → Fin I → ℝ) → Fin (N * L) → Fin P → Fin R → ℝ)
    (s : Fin N → Fin L → Fin I → ℝ) (f : Fin P → (Fin I → ℝ) → Fin R → ℝ)
    (hf : ∀ X m p, transform X m p = f p (X m)) (n : Fin N) (l : Fin L) (p : Fin P) :
    rvecsFromSamples transform s n (finProdFinEquiv (l, p)) = f p (s n l) := by
  unfold rvecsFromSamples split
  dsimp only
  have hk : Fin.cast (Nat.mul_assoc N L P).symm (finProdFinEquiv (n, finProdFinEquiv (l, p))) =
      finProdFinEquiv (finProdFinEquiv (n, l), p) := by
    refine Fin.ext ?_
    rw [Fin.val_cast, pair_val, pair_val, pair_val, pair_val]
    ring
  rw [hk, merge_pair, hf, merge_pair]

theorem meanOver_pairs {L P : ℕ} (f : Fin (L * P) → ℝ) :
    meanOver f = (1 / ((L : ℝ) * P)) * ∑ l, ∑ p, f (finProdFinEquiv (l, p)) := by
  unfold meanOver
  rw [← finProdFinEquiv.sum_comp, Fintype.sum_prod_type]
  push_cast
  ring

theorem meanPdfvecs_eq {N S R Q : ℕ} (pdfvec : (Fin R → ℝ) → Fin Q → ℝ)
    (rvecs : Fin N → Fin S → Fin R → ℝ) (n : Fin N) (q : Fin Q) :
    meanPdfvecs pdfvec rvecs n q = meanOver fun s => pdfvec (rvecs n s) q := by
  unfold meanPdfvecs split
  dsimp only
  simp only [merge_pair]

theorem xentropy_eq {N S I Qp : ℕ} (priorStats : (Fin I → ℝ) → Fin Qp → ℝ)
    (priorLlh : (Fin N → Fin Qp → ℝ) → Fin N → ℝ) (s : Fin N → Fin S → Fin I → ℝ) (n : Fin N) :
    xentropy priorStats priorLlh s n =
      -priorLlh (fun n q => average fun l => priorStats (s n l) q) n := by
  unfold xentropy split
  dsimp only
  simp only [merge_pair, Props.average_eq]

theorem mldc_valid {D : ℕ} (p : MLDC D) : NDValid D p.nd := by
  refine ⟨by simp [MLDC.nd], by simp [MLDC.nd], ?_⟩
  intro x hx
  simp only [MLDC.nd, List.mem_ofFn] at hx
  obtain ⟨d, rfl⟩ := hx
  unfold MLDC.diagCov
  positivity

theorem entropyOf_eq {N S I : ℕ} (hS : 0 < S) (posts : Fin N → MLDC I)
    (s : Fin N → Fin S → Fin I → ℝ) (n : Fin N) :
    entropyOf posts s n =
      -average fun l => logDensity (posts n).mean (posts n).diagCov (s n l) := by
  unfold entropyOf split
  dsimp only
  simp only [merge_pair]
  rw [Props.pdfRow_average hS _ (mldc_valid _)]
  congr 2
  funext l
  exact Props.nd_forward_value (D := I) _ (mldc_valid _) _ (by simp)

end Verif.GSM
