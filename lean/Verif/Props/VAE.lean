import Verif.Spec.VAE
import Verif.Props.NormalDist

/-!
# C98: the objective of the variational auto-encoder
-/

namespace Verif.Props

open Verif Verif.Dists Verif.DistSpec Real

variable {D X Q N S : ℕ}

theorem vae_sample (v : VAE D X Q N) (x : Fin X → ℝ) (e : Fin D → ℝ) :
    v.sample x e = latent v x e := by
  funext d
  unfold VAE.sample VAE.post meanLogDiagCov ndSample latent
  rw [zipWith_ofFn, zipWith_ofFn, List.getD_eq_getElem _ _ (by simp)]
  simp

theorem vae_valid {K : ℕ} (m l : Fin K → ℝ) : NDValid K (meanLogDiagCov m l) := by
  refine ⟨by simp [meanLogDiagCov], by simp [meanLogDiagCov], ?_⟩
  intro x hx
  simp only [meanLogDiagCov, List.mem_ofFn] at hx
  obtain ⟨d, rfl⟩ := hx
  positivity

theorem average_eq (f : Fin S → ℝ) : meanOver f = average f := by
  unfold meanOver average; ring

theorem vae_llh (v : VAE D X Q N) (data : Fin N → Fin X → ℝ) (eps : Fin N → Fin S → Fin D → ℝ)
    (i : Fin N) : v.llh data eps i 0 =
      average fun s => decLogDensity v (latent v (data i) (eps i s)) (data i) := by
  unfold VAE.llh
  rw [average_eq]
  congr 1
  funext s
  rw [vae_sample]
  exact nd_forward_value (D := X) _ (vae_valid _ _) _ (by simp)

/-- The evaluation is affine in the statistics, so averaging the statistics is averaging the
values. -/
theorem pdfRow_average (hS : 0 < S) (p : ND ℝ) (hp : NDValid D p) (z : Fin S → Fin D → ℝ) :
    ndPdfRow D p (List.ofFn fun k : Fin (D + D) =>
      meanOver fun s => (ndStats (List.ofFn (z s))).getD k 0) =
    average fun s => ndPdfRow D p (ndStats (List.ofFn (z s))) := by
  have hn : (ndNatural p).length = D + D := by
    simp [ndNatural, hp.1, hp.2.1]
  obtain ⟨a, ha⟩ := exists_ofFn (ndNatural p) hn
  have hst : ∀ s, ∃ t : Fin (D + D) → ℝ, ndStats (List.ofFn (z s)) = List.ofFn t := fun s =>
    exists_ofFn _ (by simp [ndStats])
  choose t ht using hst
  have hS' : (S : ℝ) ≠ 0 := by exact_mod_cast hS.ne'
  unfold ndPdfRow
  simp only [ha, ht, vdot_ofFn]
  have hg : ∀ s (k : Fin (D + D)), (List.ofFn (t s)).getD k 0 = t s k := by
    intro s k
    rw [List.getD_eq_getElem _ _ (by simp)]; simp
  simp only [hg, meanOver, average]
  rw [Finset.sum_add_distrib, Finset.sum_sub_distrib, Finset.sum_const, Finset.sum_const,
    Finset.card_univ, Fintype.card_fin, nsmul_eq_mul, nsmul_eq_mul, Finset.sum_comm]
  have : ∑ k, a k * ((∑ s, t s k) / (S : ℝ)) = 1 / (S : ℝ) * ∑ k, ∑ s, a k * t s k := by
    rw [Finset.mul_sum]
    refine Finset.sum_congr rfl fun k _ => ?_
    rw [← Finset.mul_sum]; ring
  rw [this]
  field_simp

theorem vae_localKl (hS : 0 < S) (v : VAE D X Q N) (data : Fin N → Fin X → ℝ)
    (eps : Fin N → Fin S → Fin D → ℝ) (i : Fin N) :
    v.localKl data eps i =
      average (fun s => encLogDensity v (data i) (latent v (data i) (eps i s))) -
      v.priorLlh (fun k q => average fun s => v.priorStats (latent v (data k) (eps k s)) q) i := by
  unfold VAE.localKl VAE.ent
  rw [pdfRow_average hS (v.post (data i)) (vae_valid _ _)]
  have h1 : v.sStats data eps =
      fun k q => average fun s => v.priorStats (latent v (data k) (eps k s)) q := by
    funext k q
    unfold VAE.sStats
    simp only [average_eq, vae_sample]
  rw [h1]
  have h2 : ∀ s, ndPdfRow D (v.post (data i)) (ndStats (List.ofFn (v.sample (data i) (eps i s)))) =
      encLogDensity v (data i) (latent v (data i) (eps i s)) := by
    intro s
    rw [vae_sample]
    exact nd_forward_value (D := D) _ (vae_valid _ _) _ (by simp)
  simp only [h2]
  ring

/-- C98, what the code computes: a matrix, whose entry `(i, j)` combines the reconstruction of frame
`i` with the divergence of frame `j`.  On the diagonal it is the contribution of the frame. -/
theorem C98_pairs_of_frames (hS : 0 < S) (v : VAE D X Q N) (wl wk : ℝ) (data : Fin N → Fin X → ℝ)
    (eps : Fin N → Fin S → Fin D → ℝ) (i j : Fin N) :
    v.expLlh wl wk data eps i j =
      wl * average (fun s => decLogDensity v (latent v (data i) (eps i s)) (data i)) -
      wk * (average (fun s => encLogDensity v (data j) (latent v (data j) (eps j s))) -
        v.priorLlh (fun k q => average fun s => v.priorStats (latent v (data k) (eps k s)) q) j) ∧
    v.expLlh wl wk data eps i i = frameTerm v wl wk data eps i := by
  constructor
  · unfold VAE.expLlh; rw [vae_llh, vae_localKl hS]
  · unfold VAE.expLlh frameTerm; rw [vae_llh, vae_localKl hS]

theorem vae_elbo_sum (hS : 0 < S) (v : VAE D X Q N) (wl wk : ℝ) (data : Fin N → Fin X → ℝ)
    (eps : Fin N → Fin S → Fin D → ℝ) :
    ∑ i, ∑ j, v.expLlh wl wk data eps i j = (N : ℝ) * ∑ i, frameTerm v wl wk data eps i := by
  have h : ∀ i j, v.expLlh wl wk data eps i j =
      wl * average (fun s => decLogDensity v (latent v (data i) (eps i s)) (data i)) -
      wk * (average (fun s => encLogDensity v (data j) (latent v (data j) (eps j s))) -
        v.priorLlh (fun k q => average fun s => v.priorStats (latent v (data k) (eps k s)) q) j) :=
    fun i j => (C98_pairs_of_frames hS v wl wk data eps i j).1
  simp only [h, frameTerm, Finset.sum_sub_distrib, Finset.sum_const, Finset.card_univ,
    Fintype.card_fin, nsmul_eq_mul, ← Finset.mul_sum]
  ring

/-- C98, what the code computes: the local part of the objective is `N` times the sum of the
contributions of the `N` frames of the batch. -/
theorem C98_elbo_times_batch (hS : 0 < S) (hN : 0 < N) (v : VAE D X Q N) (datasize kl wl wk : ℝ)
    (hd : 0 < datasize) (data : Fin N → Fin X → ℝ) (eps : Fin N → Fin S → Fin D → ℝ) :
    v.elbo datasize kl wl wk data eps =
      .ok (datasize / N * ((N : ℝ) * ∑ i, frameTerm v wl wk data eps i) - kl) := by
  simp only [VAE.elbo, if_neg (not_le.2 hd), if_neg hN.ne', vae_elbo_sum hS]

/-- C98: without a data size (zero or negative), the size of the batch is used. -/
theorem C98_default_size (hN : 0 < N) (v : VAE D X Q N) (datasize kl wl wk : ℝ)
    (hd : datasize ≤ 0) (data : Fin N → Fin X → ℝ) (eps : Fin N → Fin S → Fin D → ℝ) :
    v.elbo datasize kl wl wk data eps = v.elbo N kl wl wk data eps := by
  have h : ¬ (N : ℝ) ≤ 0 := not_le.2 (by exact_mod_cast hN)
  simp only [VAE.elbo, if_pos hd, if_neg h]

/-- C98: an empty batch raises. -/
theorem C98_empty_batch_raises (v : VAE D X Q 0) (datasize kl wl wk : ℝ) (data : Fin 0 → Fin X → ℝ)
    (eps : Fin 0 → Fin S → Fin D → ℝ) :
    v.elbo datasize kl wl wk data eps = .error .zeroDivision := by
  simp [VAE.elbo]

/-- C98, batches of one frame: the objective is the intended one.  Missing: larger batches, where it
is not (`C98_elbo_negation`). -/
theorem C98_single_frame_partial (hS : 0 < S) (v : VAE D X Q 1) (datasize kl wl wk : ℝ)
    (hd : 0 < datasize) (data : Fin 1 → Fin X → ℝ) (eps : Fin 1 → Fin S → Fin D → ℝ) :
    v.elbo datasize kl wl wk data eps = .ok (datasize * frameTerm v wl wk data eps 0 - kl) := by
  rw [C98_elbo_times_batch hS one_pos v datasize kl wl wk hd]
  simp

/-- C98 is violated: for every batch of two frames or more whose total contribution is not zero, the
objective is not the sum of the contributions of the frames. -/
theorem C98_elbo_negation (hS : 0 < S) (hN : 2 ≤ N) (v : VAE D X Q N) (datasize kl wl wk : ℝ)
    (hd : 0 < datasize) (data : Fin N → Fin X → ℝ) (eps : Fin N → Fin S → Fin D → ℝ)
    (h0 : ∑ i, frameTerm v wl wk data eps i ≠ 0) :
    v.elbo datasize kl wl wk data eps ≠
      .ok (datasize / N * (∑ i, frameTerm v wl wk data eps i) - kl) := by
  rw [C98_elbo_times_batch hS (by omega) v datasize kl wl wk hd]
  intro h
  injection h with h
  have hN' : (2 : ℝ) ≤ N := by exact_mod_cast hN
  have h1 : datasize / N * ((N : ℝ) * ∑ i, frameTerm v wl wk data eps i) =
      datasize / N * ∑ i, frameTerm v wl wk data eps i := by linarith
  have h2 : datasize / (N : ℝ) ≠ 0 := by positivity
  have h3 := mul_left_cancel₀ h2 h1
  have h4 : ((N : ℝ) - 1) * ∑ i, frameTerm v wl wk data eps i = 0 := by linarith
  rcases mul_eq_zero.1 h4 with h5 | h5
  · linarith
  · exact h0 h5

/-- C98: with a prior whose expected log-likelihood is affine in the statistics of each frame (as for
every conjugate likelihood), the averaged statistics give the average of the values of the samples. -/
theorem C98_affine_prior (hS : 0 < S) (v : VAE D X Q N) (a : Fin Q → ℝ) (b : ℝ)
    (hprior : ∀ st i, v.priorLlh st i = ∑ q, a q * st i q + b) (data : Fin N → Fin X → ℝ)
    (eps : Fin N → Fin S → Fin D → ℝ) (i : Fin N) :
    v.priorLlh (v.sStats data eps) i =
      average fun s => ∑ q, a q * v.priorStats (latent v (data i) (eps i s)) q + b := by
  have hS' : (S : ℝ) ≠ 0 := by exact_mod_cast hS.ne'
  rw [hprior]
  unfold VAE.sStats average meanOver
  simp only [vae_sample]
  rw [Finset.sum_add_distrib, Finset.sum_const, Finset.card_univ, Fintype.card_fin, nsmul_eq_mul,
    Finset.sum_comm, mul_add]
  congr 1
  · rw [Finset.mul_sum]
    refine Finset.sum_congr rfl fun q _ => ?_
    rw [← Finset.mul_sum]; ring
  · field_simp

/-- A concrete violation: two frames, one sample, no dependence on the data. -/
example : ∃ v : VAE 1 1 1 2, ∃ data : Fin 2 → Fin 1 → ℝ, ∃ eps : Fin 2 → Fin 1 → Fin 1 → ℝ,
    v.elbo 2 0 0 1 data eps ≠ .ok (2 / 2 * (∑ i, frameTerm v 0 1 data eps i) - 0) := by
  let v : VAE 1 1 1 2 := ⟨fun _ _ => 0, fun _ _ => 0, fun _ _ => 0, fun _ _ => 0, fun _ _ => 0,
    fun _ i => encLogDensity (⟨fun _ _ => 0, fun _ _ => 0, fun _ _ => 0, fun _ _ => 0, fun _ _ => 0,
      fun _ _ => 0⟩ : VAE 1 1 1 2) (fun _ => 0) (fun _ => 0) + 1⟩
  have hf : ∀ i, frameTerm v 0 1 (fun _ _ => 0) (fun _ (_ : Fin 1) _ => 0) i = 1 := by
    intro i
    simp [frameTerm, average, v, latent, encLogDensity]
  refine ⟨v, fun _ _ => 0, fun _ _ _ => 0, ?_⟩
  have := C98_elbo_negation (S := 1) (N := 2) one_pos le_rfl v 2 0 0 1 two_pos (fun _ _ => 0)
    (fun _ _ _ => 0) (by simp [hf])
  exact_mod_cast this

/-- A batch of one frame, and a conjugate prior: the standard normal with statistics `(z, z²)`. -/
example : ∃ v : VAE 1 1 2 1, (∀ st i, v.priorLlh st i = ∑ q, ![0, -1 / 2] q * st i q + 3) ∧
    ∀ data (eps : Fin 1 → Fin 1 → Fin 1 → ℝ),
      v.elbo 5 1 1 1 data eps = .ok (5 * frameTerm v 1 1 data eps 0 - 1) :=
  ⟨⟨fun x => x, fun _ _ => 0, fun z => z, fun _ _ => 0, fun z => ![z 0, z 0 ^ 2],
    fun st i => ∑ q, ![0, -1 / 2] q * st i q + 3⟩, fun _ _ => rfl,
    fun data eps => C98_single_frame_partial one_pos _ 5 1 1 1 (by norm_num) data eps⟩

end Verif.Props
