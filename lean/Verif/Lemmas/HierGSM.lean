import Verif.Lemmas.GSM
import Verif.Lemmas.VBTrain
import Verif.Spec.HierGSM

/-!
# Helper lemmas for the hierarchical subspace models
-/

namespace Verif.GSM

open Verif.GSMSpec Verif.Dists Verif.DistSpec Real

variable {V : Type} {H I O Qu Qr Q N L P B U : ℕ}

theorem genWeights_eq (v : Fin (I * O + O) → ℝ) :
    matrixOf (fun j : Fin (I * O) => v (Fin.castAdd O j)) = genWeights v := rfl

theorem genBias_eq (v : Fin (I * O + O) → ℝ) :
    (fun j : Fin O => v (Fin.natAdd (I * O) j)) = genBias v := rfl

/-- Row number `a * B + b` of the transform of a language. -/
theorem hierTransform_eq (r : HRoot V H I O Qr) (g : HLang V H I O Qu Q N)
    (e : HNoise H I O N L P B U) {M : ℕ} (X : Fin M → Fin I → ℝ) (m : Fin M) (a : Fin P) (b : Fin B) :
    hierTransform r g e X m (finProdFinEquiv (0, finProdFinEquiv (a, b))) =
      unitVector (drawn r.transform.postW.mean r.transform.postW.diagCov (e.weights b))
        (drawn r.transform.postB.mean r.transform.postB.diagCov (e.bias b))
        (drawn g.langPost.mean g.langPost.diagCov (e.lang a)) (X m) := by
  have hv := rvecs_eq (r.transform.forward e.weights e.bias)
    (fun (_ : Fin 1) a => g.langPost.sample (e.lang a))
    (fun p x => superVector
      (matrixOf (drawn r.transform.postW.mean r.transform.postW.diagCov (e.weights p)))
      (drawn r.transform.postB.mean r.transform.postB.diagCov (e.bias p)) x)
    (fun X m p => forward_eq r.transform e.weights e.bias X m p) 0 a b
  unfold hierTransform hierForward
  rw [affineRow_eq, merge_pair, merge_pair, hv, genWeights_eq, genBias_eq, mldc_sample]
  rfl

theorem average_pairs {A B : ℕ} (f : Fin (A * B) → ℝ) :
    meanOver f = average fun a => average fun b => f (finProdFinEquiv (a, b)) := by
  rw [meanOver_pairs]
  unfold average
  rw [← Finset.mul_sum]
  rcases eq_or_ne (A : ℝ) 0 with h | h
  · simp [h]
  rcases eq_or_ne (B : ℝ) 0 with h' | h'
  · simp [h']
  field_simp

theorem average_one (f : Fin 1 → ℝ) : average f = f 0 := by
  simp [average]

theorem hierPdfvecs_eq (r : HRoot V H I O Qr) (g : HLang V H I O Qu Q N)
    (e : HNoise H I O N L P B U) (n : Fin N) (q : Fin Q) :
    hierPdfvecs r g e n q =
      average fun l => average fun a => average fun b => g.pdfvec (unitSample r g e n l a b) q := by
  unfold hierPdfvecs
  rw [meanPdfvecs_eq, average_pairs]
  congr 1
  funext l
  rw [← Props.average_eq, average_pairs, average_one, ← Props.average_eq, average_pairs]
  congr 1
  funext a
  congr 1
  funext b
  have hr : rvecsFromSamples (fun X => hierTransform r g e X)
      (fun n l => (g.posts n).sample (e.unit n l)) n
      (finProdFinEquiv (l, finProdFinEquiv (0, finProdFinEquiv (a, b)))) =
      hierTransform r g e (fun _ : Fin 1 => (g.posts n).sample (e.unit n l)) 0
        (finProdFinEquiv (0, finProdFinEquiv (a, b))) := by
    refine rvecs_eq _ _ (fun p x => hierTransform r g e (fun _ : Fin 1 => x) 0 p) ?_ n l _
    intro X m p
    rfl
  rw [hr, hierTransform_eq, mldc_sample]
  rfl

theorem lpStats_eq {M S J K : ℕ} (priorStats : (Fin J → ℝ) → Fin K → ℝ)
    (s : Fin M → Fin S → Fin J → ℝ) (n : Fin M) (q : Fin K) :
    lpStats priorStats s n q = average fun l => priorStats (s n l) q := by
  unfold lpStats split
  dsimp only
  simp only [merge_pair, Props.average_eq]

theorem hierUnitLlh_eq (hL : 0 < L) (r : HRoot V H I O Qr) (g : HLang V H I O Qu Q N)
    (e : HNoise H I O N L P B U) (n : Fin N) : hierUnitLlh r g e n = unitTerm r g e n := by
  unfold hierUnitLlh unitTerm
  dsimp only
  rw [xentropy_eq, entropyOf_eq hL]
  simp only [mldc_sample, hierPdfvecs_eq]
  ring

theorem langTerm_eq (hU : 0 < U) (r : HRoot V H I O Qr) (g : HLang V H I O Qu Q N)
    (e : HNoise H I O N L P B U) :
    xentropy r.priorStats r.priorLlh (fun (_ : Fin 1) u => g.langPost.sample (e.univ u)) 0 -
      entropyOf (fun _ => g.langPost) (fun (_ : Fin 1) u => g.langPost.sample (e.univ u)) 0 =
    langTerm r g e := by
  unfold langTerm
  rw [xentropy_eq, entropyOf_eq hU]
  simp only [mldc_sample]
  ring

theorem hierSubElbo_ok (hN : 0 < N) (kl : ℕ → ℝ) (r : HRoot V H I O Qr) (g : HLang V H I O Qu Q N)
    (e : HNoise H I O N L P B U) :
    ∃ s, hierSubElbo kl r g e = .ok s ∧
      s.value = ∑ n, hierUnitLlh r g e n - klOfGroups kl g.groups := by
  have hN' : (N : ℝ) ≠ 0 := by exact_mod_cast hN.ne'
  unfold hierSubElbo evidenceLowerBound
  simp only [List.length_finRange, hN.ne', if_false]
  refine ⟨_, rfl, ?_⟩
  simp [hN']

end Verif.GSM
