import Verif.Lemmas.GSM
import Verif.Props.Mixture
import Verif.Props.Subspace

/-!
# C101, C102, C103, C104: the generalised subspace model
-/

namespace Verif.Props

open Verif Verif.GSM Verif.GSMSpec Verif.Dists Verif.DistSpec Real Matrix

variable {I J R Qp Q N K L P : ℕ}

/-! ## C101: super-vectors and expected pdf-vectors -/

/-- C101: the super-vector number `l * P + p` of model `n` is `Wᵀ h + b` with the sample `l` of the
latent posterior of model `n` and the sample `p` of the transform. -/
theorem C101_rvecs (t : Affine I R) (s : Fin N → Fin L → Fin I → ℝ) (epsW : Fin P → Fin (I * R) → ℝ)
    (epsB : Fin P → Fin R → ℝ) (n : Fin N) (l : Fin L) (p : Fin P) (k : Fin (L * P))
    (hk : k.1 = l.1 * P + p.1) :
    rvecsFromSamples (t.forward epsW epsB) s n k =
      superVector (matrixOf (drawn t.postW.mean t.postW.diagCov (epsW p)))
        (drawn t.postB.mean t.postB.diagCov (epsB p)) (s n l) := by
  rw [eq_pair l p k hk]
  exact rvecs_eq _ s (fun p x => superVector
      (matrixOf (drawn t.postW.mean t.postW.diagCov (epsW p)))
      (drawn t.postB.mean t.postB.diagCov (epsB p)) x)
    (fun X m p => forward_eq t epsW epsB X m p) n l p

/-- C101: the expected pdf-vector of model `n` is the average, over all pairs of a latent sample of
model `n` and a sample of the transform, of the pdf-vector of `Wᵀ h + b`. -/
theorem C101_expected_pdfvecs (g : GSM.Model I R Qp Q N) (posts : Fin N → MLDC I)
    (eps : Fin N → Fin L → Fin I → ℝ) (epsW : Fin P → Fin (I * R) → ℝ) (epsB : Fin P → Fin R → ℝ)
    (n : Fin N) (q : Fin Q) :
    g.expectedPdfvecs posts eps epsW epsB n q =
      (1 / ((L : ℝ) * P)) * ∑ l, ∑ p, g.pdfvec (superVector
        (matrixOf (drawn g.transform.postW.mean g.transform.postW.diagCov (epsW p)))
        (drawn g.transform.postB.mean g.transform.postB.diagCov (epsB p))
        (drawn (posts n).mean (posts n).diagCov (eps n l))) q := by
  unfold GSM.Model.expectedPdfvecs
  rw [meanPdfvecs_eq, meanOver_pairs]
  congr 1
  refine Finset.sum_congr rfl fun l _ => Finset.sum_congr rfl fun p _ => ?_
  rw [C101_rvecs g.transform _ epsW epsB n l p _ (pair_val l p), mldc_sample]

/-- C101: the expected pdf-vector of a model depends on its own latent posterior and noise only: with
other models in the batch, the result is the same. -/
theorem C101_batch_independent {N' Qp' : ℕ} (g : GSM.Model I R Qp Q N) (g' : GSM.Model I R Qp' Q N')
    (ht : g.transform = g'.transform) (hp : g.pdfvec = g'.pdfvec) (posts : Fin N → MLDC I)
    (posts' : Fin N' → MLDC I) (eps : Fin N → Fin L → Fin I → ℝ) (eps' : Fin N' → Fin L → Fin I → ℝ)
    (epsW : Fin P → Fin (I * R) → ℝ) (epsB : Fin P → Fin R → ℝ) (n : Fin N) (n' : Fin N')
    (h1 : posts n = posts' n') (h2 : eps n = eps' n') :
    g.expectedPdfvecs posts eps epsW epsB n = g'.expectedPdfvecs posts' eps' epsW epsB n' := by
  funext q
  rw [C101_expected_pdfvecs, C101_expected_pdfvecs, ht, hp, h1, h2]

example : ∃ (g : GSM.Model 1 1 1 1 2) (posts : Fin 2 → MLDC 1) (eps : Fin 2 → Fin 2 → Fin 1 → ℝ),
    ∀ q, g.expectedPdfvecs posts eps (fun (_ : Fin 1) _ => 0) (fun _ _ => 0) 1 q = 7 := by
  refine ⟨⟨⟨⟨fun _ => 0, fun _ => 0⟩, ⟨fun _ => 2, fun _ => 0⟩, ⟨fun _ => 0, fun _ => 0⟩,
    ⟨fun _ => 1, fun _ => 0⟩⟩, fun x => x, fun _ _ => 0, fun x => x⟩, fun n => ⟨fun _ => 3, fun _ => 0⟩,
    fun n l d => if n = 0 then 5 else 0, ?_⟩
  intro q
  rw [C101_expected_pdfvecs]
  simp [superVector, matrixOf, drawn, Matrix.mulVec, dotProduct]
  norm_num

/-! ## C102: the objective -/

/-- C102: the value for model `n` is the scalar product of its expected pdf-vector with its
statistics, minus the sampled divergence between its latent posterior and the latent prior: average log
density of the samples, minus the expected log-likelihood of their average statistics. -/
theorem C102_objective (hL : 0 < L) (g : GSM.Model I R Qp Q N) (posts : Fin N → MLDC I)
    (stats : Fin N → Fin Q → ℝ) (eps : Fin N → Fin L → Fin I → ℝ) (epsW : Fin P → Fin (I * R) → ℝ)
    (epsB : Fin P → Fin R → ℝ) (n : Fin N) :
    g.expLlh posts stats eps epsW epsB n =
      g.expectedPdfvecs posts eps epsW epsB n ⬝ᵥ stats n -
      (average (fun l => logDensity (posts n).mean (posts n).diagCov
          (drawn (posts n).mean (posts n).diagCov (eps n l))) -
        g.priorLlh (fun n q => average fun l =>
          g.priorStats (drawn (posts n).mean (posts n).diagCov (eps n l)) q) n) := by
  unfold GSM.Model.expLlh
  dsimp only
  rw [xentropy_eq, entropyOf_eq hL]
  simp only [mldc_sample, dotProduct]
  ring

/-- Averaging the statistics before an affine function is averaging its values. -/
theorem affine_average (hL : 0 < L) (a : Fin Qp → ℝ) (b : ℝ) (f : Fin L → Fin Qp → ℝ) :
    ∑ q, a q * average (fun l => f l q) + b = average fun l => ∑ q, a q * f l q + b := by
  have hL' : (L : ℝ) ≠ 0 := by exact_mod_cast hL.ne'
  unfold average
  rw [Finset.sum_add_distrib, Finset.sum_const, Finset.card_univ, Fintype.card_fin, nsmul_eq_mul,
    Finset.sum_comm, mul_add]
  congr 1
  · rw [Finset.mul_sum]
    refine Finset.sum_congr rfl fun q _ => ?_
    rw [← Finset.mul_sum]; ring
  · field_simp

/-- C102, mixture as latent prior: the prior sees the average of the statistics, so the value is
never above the one with the average, over the samples, of the log density of the mixture: the objective
stays a lower bound. -/
theorem C102_mixture_prior_bound {C : ℕ} (hC : 0 < C) (hL : 0 < L) (g : GSM.Model I R Qp Q N)
    (lw b : Fin C → ℝ) (a : Fin C → Fin Qp → ℝ)
    (hprior : ∀ st n, g.priorLlh st n =
      (Mixture.mixLocal lw fun c => ∑ q, a c q * st n q + b c).value)
    (posts : Fin N → MLDC I) (stats : Fin N → Fin Q → ℝ) (eps : Fin N → Fin L → Fin I → ℝ)
    (epsW : Fin P → Fin (I * R) → ℝ) (epsB : Fin P → Fin R → ℝ) (n : Fin N) :
    g.expLlh posts stats eps epsW epsB n ≤
      g.expectedPdfvecs posts eps epsW epsB n ⬝ᵥ stats n -
      average (fun l => logDensity (posts n).mean (posts n).diagCov
          (drawn (posts n).mean (posts n).diagCov (eps n l)) -
        log (∑ c, exp (lw c) * exp (∑ q, a c q *
          g.priorStats (drawn (posts n).mean (posts n).diagCov (eps n l)) q + b c))) := by
  rw [C102_objective hL]
  have hL' : (0 : ℝ) < L := by exact_mod_cast hL
  set h := fun l => drawn (posts n).mean (posts n).diagCov (eps n l) with hh
  have key : g.priorLlh (fun n q => average fun l =>
      g.priorStats (drawn (posts n).mean (posts n).diagCov (eps n l)) q) n ≤
      average fun l => log (∑ c, exp (lw c) * exp (∑ q, a c q * g.priorStats (h l) q + b c)) := by
    rw [hprior]
    simp only [affine_average hL]
    set u : Fin L → Fin C → ℝ := fun l c => ∑ q, a c q * g.priorStats (h l) q + b c with hu
    set ub : Fin C → ℝ := fun c => average fun l => u l c with hub
    obtain ⟨hr, -⟩ := C44_responsibilities hC lw ub
    have h1 := ((C44_optimal hC lw ub _ hr).2).2 rfl
    have h2 : ∀ l, Mixture.localObjective lw (u l) (Mixture.mixLocal lw ub).resps ≤
        log (∑ c, exp (lw c) * exp (u l c)) := fun l => by
      rw [← C44_value hC]
      exact (C44_optimal hC lw (u l) _ hr).1
    have h3 : Mixture.localObjective lw ub (Mixture.mixLocal lw ub).resps =
        average fun l => Mixture.localObjective lw (u l) (Mixture.mixLocal lw ub).resps := by
      generalize (Mixture.mixLocal lw ub).resps = r
      have := affine_average hL r (∑ k, r k * lw k + ∑ k, negMulLog (r k)) u
      unfold Mixture.localObjective
      have e : ∀ v : Fin C → ℝ, ∑ k, r k * (lw k + v k) + ∑ k, negMulLog (r k) =
          ∑ q, r q * v q + (∑ k, r k * lw k + ∑ k, negMulLog (r k)) := by
        intro v
        simp only [mul_add, Finset.sum_add_distrib]
        ring
      simp only [e]
      exact this
    change (Mixture.mixLocal lw ub).value ≤ _
    rw [← h1, h3]
    unfold average
    exact mul_le_mul_of_nonneg_left (Finset.sum_le_sum fun l _ => h2 l) (by positivity)
  have e : average (fun l => logDensity (posts n).mean (posts n).diagCov (h l) -
        log (∑ c, exp (lw c) * exp (∑ q, a c q * g.priorStats (h l) q + b c))) =
      average (fun l => logDensity (posts n).mean (posts n).diagCov (h l)) -
        average fun l => log (∑ c, exp (lw c) * exp (∑ q, a c q * g.priorStats (h l) q + b c)) := by
    unfold average
    rw [Finset.sum_sub_distrib]; ring
  rw [e]
  linarith

example : ∃ g : GSM.Model 1 1 1 1 1, ∀ st n, g.priorLlh st n = (Mixture.mixLocal
    (fun _ : Fin 2 => log (1 / 2)) fun c => ∑ q, ![fun _ => 1, fun _ => (-1 : ℝ)] c q * st n q +
      ![0, 3] c).value :=
  ⟨⟨⟨⟨fun _ => 0, fun _ => 0⟩, ⟨fun _ => 2, fun _ => 0⟩, ⟨fun _ => 0, fun _ => 0⟩,
    ⟨fun _ => 1, fun _ => 0⟩⟩, fun x => x, _, fun x => x⟩, fun _ _ => rfl⟩

/-! ## C103: statistics and pdf-vectors are laid out alike -/

theorem rowDot_append (u u' v v' : List ℝ) (h : u.length = v.length) :
    ModelSet.rowDot (u ++ u') (v ++ v') = ModelSet.rowDot u v + ModelSet.rowDot u' v' := by
  unfold ModelSet.rowDot
  rw [List.zipWith_append h, List.sum_append]

theorem rowDot_flatten (out stats : List (List ℝ)) (h : out.map List.length = stats.map List.length) :
    ModelSet.rowDot out.flatten stats.flatten = (List.zipWith ModelSet.rowDot out stats).sum := by
  induction out generalizing stats with
  | nil =>
    cases stats with
    | nil => simp [ModelSet.rowDot]
    | cons s ss => simp at h
  | cons o os ih =>
    cases stats with
    | nil => simp at h
    | cons s ss =>
      simp only [List.map_cons, List.cons.injEq] at h
      rw [List.flatten_cons, List.flatten_cons, rowDot_append _ _ _ _ h.1, ih ss h.2,
        List.zipWith_cons_cons, List.sum_cons]

/-- C103: the statistics of the parameters, put one after the other, have the layout in which the
pdf-vector is written back into the parameters: the scalar product of the objective is the sum, over
the parameters, of the scalar product of the vector the parameter receives with its own statistics. -/
theorem C103_scalar_product (vec : List ℝ) (ps : List (ModelSet.SubParam ℝ)) (stats : List (List ℝ))
    (hs : stats.map List.length = ps.map ModelSet.SubParam.numel)
    (hv : vec.length = (gsmStats stats).length) :
    ∃ out, ModelSet.updateParams vec ps 0 = .ok out ∧ out.length = ps.length ∧
      ModelSet.rowDot vec (gsmStats stats) = (List.zipWith ModelSet.rowDot out stats).sum := by
  have hl : vec.length = (ps.map ModelSet.SubParam.numel).sum := by
    rw [hv, gsmStats, List.length_flatten, hs]
  obtain ⟨out, h1, h2, h3⟩ := C67_update_params vec ps hl
  refine ⟨out, h1, by simpa using congrArg List.length h3, ?_⟩
  rw [← h2]
  exact rowDot_flatten out stats (h3.trans hs.symm)

example : ∃ out, ModelSet.updateParams [1, 2, 3] [⟨1, 1, 2, id, 2⟩, ⟨1, 1, 1, id, 1⟩] 0 = .ok out ∧
    out.length = 2 ∧ ModelSet.rowDot [1, 2, 3] (gsmStats [[4, 5], [6]]) =
      (List.zipWith ModelSet.rowDot out [[4, 5], [6]]).sum :=
  C103_scalar_product _ _ _ rfl rfl

/-! ## C104: sets of subspace models -/

/-- C104: the pdf-vector for class `k` and model `n` is the average of the pdf-vectors of
`Wᵀ h + b + Dᵀ m`, where `h` is a sample of model `n` and `m` a sample of the mean of class `k`. -/
theorem C104_pdfvecs (g : SetModel I J R Qp Q N K) (posts : Fin N → MLDC I)
    (eps : Fin N → Fin L → Fin I → ℝ) (epsM : Fin K → Fin L → Fin J → ℝ)
    (epsW : Fin P → Fin (I * R) → ℝ) (epsB : Fin P → Fin R → ℝ) (epsD : Fin P → Fin (J * R) → ℝ)
    (n : Fin N) (k : Fin K) (q : Fin Q) :
    g.pdfvecs posts eps epsM epsW epsB epsD k n q =
      (1 / ((L : ℝ) * P)) * (∑ l, ∑ p, g.pdfvec (superVector
        (matrixOf (drawn g.transform.postW.mean g.transform.postW.diagCov (epsW p)))
        (drawn g.transform.postB.mean g.transform.postB.diagCov (epsB p))
        (drawn (posts n).mean (posts n).diagCov (eps n l)) +
        (matrixOf (drawn g.discW.mean g.discW.diagCov (epsD p)))ᵀ *ᵥ
        drawn (g.means k).mean (g.means k).diagCov (epsM k l)) q) := by
  unfold SetModel.pdfvecs split
  rw [meanPdfvecs_eq, merge_pair, meanOver_pairs]
  congr 1
  refine Finset.sum_congr rfl fun l _ => Finset.sum_congr rfl fun p _ => ?_
  have e1 := C101_rvecs g.transform (fun n l => (posts n).sample (eps n l)) epsW epsB n l p _
    (pair_val l p)
  have e2 := rvecs_eq (linearForward g.discW epsD) (fun k l => (g.means k).sample (epsM k l))
    (fun p x => superVector (matrixOf (drawn g.discW.mean g.discW.diagCov (epsD p))) 0 x)
    (fun X m p => linear_eq g.discW epsD X m p) k l p
  congr 2
  funext r
  rw [e1, e2, mldc_sample, mldc_sample]
  simp [superVector]

/-- C104: the entry for model `n` and class `k` is the scalar product of the statistics of model `n`
with the pdf-vector of the pair, minus the divergence of the latent posterior of model `n`. -/
theorem C104_pairs (hL : 0 < L) (g : SetModel I J R Qp Q N K) (posts : Fin N → MLDC I)
    (stats : Fin N → Fin Q → ℝ) (eps : Fin N → Fin L → Fin I → ℝ) (epsM : Fin K → Fin L → Fin J → ℝ)
    (epsW : Fin P → Fin (I * R) → ℝ) (epsB : Fin P → Fin R → ℝ) (epsD : Fin P → Fin (J * R) → ℝ)
    (n : Fin N) (k : Fin K) :
    g.expLlh posts stats eps epsM epsW epsB epsD n k =
      g.pdfvecs posts eps epsM epsW epsB epsD k n ⬝ᵥ stats n -
      (average (fun l => logDensity (posts n).mean (posts n).diagCov
          (drawn (posts n).mean (posts n).diagCov (eps n l))) -
        g.priorLlh (fun n q => average fun l =>
          g.priorStats (drawn (posts n).mean (posts n).diagCov (eps n l)) q) n) := by
  unfold SetModel.expLlh
  dsimp only
  rw [xentropy_eq, entropyOf_eq hL]
  simp only [mldc_sample, dotProduct]
  ring

/-- C104: with responsibilities summing to one for model `n`, the mean over the classes of the values
is the scalar product of the statistics with the pdf-vector written into the model, minus the
divergence of its latent posterior counted once. -/
theorem C104_weighted (g : SetModel I J R Qp Q N K) (posts : Fin N → MLDC I)
    (stats : Fin N → Fin Q → ℝ) (eps : Fin N → Fin L → Fin I → ℝ) (epsM : Fin K → Fin L → Fin J → ℝ)
    (epsW : Fin P → Fin (I * R) → ℝ) (epsB : Fin P → Fin R → ℝ) (epsD : Fin P → Fin (J * R) → ℝ)
    (resps : Fin N → Fin K → ℝ) (n : Fin N) (hr : ∑ k, resps n k = 1) :
    ∑ k, resps n k * g.expLlh posts stats eps epsM epsW epsB epsD n k =
      SetModel.weighted resps (g.pdfvecs posts eps epsM epsW epsB epsD) n ⬝ᵥ stats n -
      (xentropy g.priorStats g.priorLlh (fun n l => (posts n).sample (eps n l)) n -
        entropyOf posts (fun n l => (posts n).sample (eps n l)) n) := by
  unfold SetModel.expLlh SetModel.weighted
  dsimp only
  simp only [mul_sub, Finset.sum_sub_distrib, ← Finset.sum_mul, hr, one_mul]
  congr 1
  rw [dotProduct]
  simp only [Finset.sum_mul, Finset.mul_sum]
  rw [Finset.sum_comm]
  refine Finset.sum_congr rfl fun q _ => Finset.sum_congr rfl fun k _ => ?_
  ring

example : ∃ (g : SetModel 1 1 1 1 1 1 2) (posts : Fin 1 → MLDC 1) (resps : Fin 1 → Fin 2 → ℝ),
    ∑ k, resps 0 k = 1 ∧ ∀ q, SetModel.weighted resps (g.pdfvecs posts (fun _ (_ : Fin 1) _ => 0)
      (fun _ _ _ => 0) (fun (_ : Fin 1) _ => 0) (fun _ _ => 0) (fun _ _ => 0)) 0 q = 9 := by
  refine ⟨⟨⟨⟨fun _ => 0, fun _ => 0⟩, ⟨fun _ => 2, fun _ => 0⟩, ⟨fun _ => 0, fun _ => 0⟩,
    ⟨fun _ => 1, fun _ => 0⟩⟩, ⟨fun _ => 4, fun _ => 0⟩, fun k => ⟨fun _ => if k = 0 then 0 else 1,
    fun _ => 0⟩, fun x => x, fun _ _ => 0, fun x => x⟩, fun _ => ⟨fun _ => 3, fun _ => 0⟩,
    fun _ _ => 1 / 2, by norm_num, ?_⟩
  intro q
  simp only [SetModel.weighted, C104_pdfvecs, Fin.sum_univ_two]
  simp [superVector, matrixOf, drawn, Matrix.mulVec, dotProduct]
  norm_num

end Verif.Props
