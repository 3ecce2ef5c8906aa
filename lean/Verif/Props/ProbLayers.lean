import Verif.Lemmas.ProbLayers

/-!
# C121: the probabilistic layers are the distributions they are named after
-/

namespace Verif.Props

open Verif Nnet ProbLayers ProbLayersSpec MeasureTheory ProbabilityTheory

variable {I D : ℕ}

/-- Normal layer with diagonal covariance: for all weights and inputs, the variances are positive,
`exp(log_likelihood)` is the density of the normal law with these means and variances (so its integral is
one), and standard normal noise gives samples of that law. -/
theorem C121_diagonal (mean logvar : Linear I D) (x : Fin I → ℝ) :
    let p := diagForward mean logvar none x
    p.1 = mean.forward x ∧ (∀ d, 0 < p.2 d) ∧
    volume.withDensity (fun y => ENNReal.ofReal (Real.exp (diagLlh y p))) = diagGaussian p.1 p.2 ∧
    (diagGaussian (0 : Fin D → ℝ) 1).map (fun z => (diagSamples p false z).1) = diagGaussian p.1 p.2 ∧
    ∫ y, Real.exp (diagLlh y p) = 1 := by
  intro p
  have hv : ∀ d, 0 < p.2 d := fun d => nonlinearity_pos _
  refine ⟨rfl, hv, (pi_gaussian_withDensity p.1 p.2 hv).symm, map_noise p.1 p.2 hv, ?_⟩
  have h := exp_diagLlh p.1 p.2 hv
  rw [show (fun y => Real.exp (diagLlh y p)) = fun y => ∏ d, gaussianPDFReal (p.1 d) (p.2 d).toNNReal (y d) from
    funext h, integral_fintype_prod_volume_eq_prod]
  exact Finset.prod_eq_one fun d _ => integral_gaussianPDFReal_eq_one _ (by simpa using hv d)

/-- The log-likelihood returned with a sample is the one of that sample; with `use_mean` the sample is the
mean, which is the expected value and the only most likely value. -/
theorem C121_use_mean (m v : Fin D → ℝ) (hv : ∀ d, 0 < v d) (useMean : Bool) (z : Fin D → ℝ) :
    (diagSamples (m, v) useMean z).2 = diagLlh (diagSamples (m, v) useMean z).1 (m, v) ∧
    (diagSamples (m, v) true z).1 = m ∧ (∀ d, ∫ y, y d ∂diagGaussian m v = m d) ∧
    ∀ y, diagLlh y (m, v) ≤ diagLlh m (m, v) ∧ (diagLlh y (m, v) = diagLlh m (m, v) ↔ y = m) :=
  ⟨rfl, rfl, diagGaussian_mean m v, diagLlh_mode m v hv⟩

example : diagLlh ![1, 2] (![0, 0], ![1, 4]) = -(1 / 2) * (Real.log 4 + 2 + 2 * Real.log (2 * Real.pi)) := by
  unfold diagLlh
  simp [Fin.sum_univ_two]
  norm_num

/-- Isotropic layer: the same with one variance for all the coordinates. -/
theorem C121_isotropic (mean : Linear I D) (logvar : Linear I 1) (x : Fin I → ℝ) :
    let p := isoForward mean logvar none x
    p.1 = mean.forward x ∧ (∃ s, 0 < s ∧ ∀ d, p.2 d = s) ∧
    volume.withDensity (fun y => ENNReal.ofReal (Real.exp (diagLlh y p))) = diagGaussian p.1 p.2 ∧
    (diagGaussian (0 : Fin D → ℝ) 1).map (fun z => (diagSamples p false z).1) = diagGaussian p.1 p.2 := by
  intro p
  have hs : 0 < nonlinearity none (logvar.forward x 0) * 1 := by rw [mul_one]; exact nonlinearity_pos _
  have hv : ∀ d, 0 < p.2 d := fun d => hs
  exact ⟨rfl, ⟨_, hs, fun _ => rfl⟩, (pi_gaussian_withDensity p.1 p.2 hv).symm, map_noise p.1 p.2 hv⟩

/-- Identity covariance: the same with variances one. -/
theorem C121_identity (m : Fin D → ℝ) :
    volume.withDensity (fun y => ENNReal.ofReal (Real.exp (idLlh y m))) = diagGaussian m 1 ∧
    (diagGaussian (0 : Fin D → ℝ) 1).map (fun z => (idSamples m false z).1) = diagGaussian m 1 ∧
    (∀ z, (idSamples m true z).1 = m) ∧ ∀ b z, (idSamples m b z).2 = idLlh (idSamples m b z).1 m := by
  have hv : ∀ d : Fin D, 0 < (1 : Fin D → ℝ) d := fun d => one_pos
  refine ⟨?_, ?_, fun _ => rfl, fun _ _ => rfl⟩
  · rw [pi_gaussian_withDensity m 1 hv]
    congr 1
    funext y
    rw [idLlh_eq]
    rfl
  · rw [← map_noise m 1 hv]
    congr 1
    funext z d
    simp [idSamples]

example : (idSamples ![(1 : ℝ), 2] false ![5, -1]).1 = ![6, 1] := by
  unfold idSamples
  ext d
  fin_cases d <;> simp <;> norm_num

/-- Bernoulli layer: the means are in (0, 1) and, for binary data, the likelihood is the product of the
probabilities, each raised by `1e-6`; drawing samples is refused. -/
theorem C121_bernoulli_partial (mean : Linear I D) (x : Fin I → ℝ) (y : Fin D → Bool) (b : Bool) (z : Fin D → ℝ) :
    let m := bernForward mean x
    (∀ d, 0 < m d ∧ m d < 1) ∧
    Real.exp (bernLlh (fun d => if y d then 1 else 0) m) = (∏ d, ((if y d then m d else 1 - m d) + 1e-6)) ∧
    bernoulli m y ≤ Real.exp (bernLlh (fun d => if y d then 1 else 0) m) ∧
    bernSamples m b z = .error .notImplemented := by
  intro m
  have hm : ∀ d, 0 < m d ∧ m d < 1 := fun d => sigmoid_bounds _
  have he : Real.exp (bernLlh (fun d => if y d then 1 else 0) m) =
      (∏ d, ((if y d then m d else 1 - m d) + 1e-6)) := by
    rw [exp_bernLlh m fun d => ⟨(hm d).1.le, (hm d).2.le⟩]
    refine Finset.prod_congr rfl fun d _ => ?_
    cases y d <;> simp <;> ring
  refine ⟨hm, he, ?_, rfl⟩
  rw [he]
  unfold bernoulli
  refine Finset.prod_le_prod (fun d _ => ?_) fun d _ => ?_
  · have := hm d; cases y d <;> simp <;> linarith
  · norm_num

/-- The code violates normalisation: the likelihoods of all the binary vectors sum to `(1 + 2e-6) ^ D`, more
than one. -/
theorem C121_bernoulli_not_normalised (m : Fin D → ℝ) (hm : ∀ d, 0 ≤ m d ∧ m d ≤ 1) :
    ∑ y : Fin D → Bool, Real.exp (bernLlh (fun d => if y d then 1 else 0) m) = (1 + 2e-6) ^ D ∧
    ∑ y : Fin D → Bool, bernoulli m y = 1 ∧ (0 < D → (1 : ℝ) < (1 + 2e-6) ^ D) := by
  refine ⟨?_, ?_, fun hD => one_lt_pow₀ (by norm_num) hD.ne'⟩
  · rw [Finset.sum_congr rfl fun y _ => exp_bernLlh m hm y, sum_prod_bool]
    rw [Finset.prod_congr rfl fun d _ => (by ring : (1e-6 : ℝ) + m d + (1e-6 + 1 - m d) = 1 + 2e-6)]
    simp
  · unfold bernoulli
    rw [sum_prod_bool]
    exact Finset.prod_eq_one fun d _ => by ring

/-- Some log-likelihoods of binary data are positive. -/
theorem C121_bernoulli_positive : 0 < bernLlh (fun _ : Fin 1 => 1) fun _ => 1 := by
  unfold bernLlh
  simp only [Finset.univ_unique, Finset.sum_singleton, sub_self, zero_mul, add_zero, one_mul]
  exact Real.log_pos (by norm_num)

example : ∑ y : Fin 2 → Bool, Real.exp (bernLlh (fun d => if y d then 1 else 0) ![1 / 2, 1 / 4]) = (1 + 2e-6) ^ 2 :=
  (C121_bernoulli_not_normalised ![1 / 2, 1 / 4] (by
    intro d; fin_cases d <;> simp <;> norm_num)).1

end Verif.Props
