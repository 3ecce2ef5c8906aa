import Verif.Spec.Detached
import Verif.Props.AcousticScale
import Verif.Props.Mixture
import Mathlib.Analysis.SpecialFunctions.Log.Deriv
import Mathlib.Analysis.SpecialFunctions.ExpDeriv
import Mathlib.Analysis.Convex.Function

/-!
# C176 — the value of an HMM or a mixture has the gradient of the log-probability
-/

namespace Verif.Props

open Real Filter Topology Verif Verif.Spec Verif.VB Verif.Mixture

variable {K n : ℕ}

theorem evidence_asLog_pos (g : CGraph K) (h : Traversable g n) (v : Fin (n + 1) → Fin K → ℝ) : 0 < evidence g (asLog v) := by
  obtain ⟨p, hp⟩ := h
  rw [graphWeight_eq] at hp
  rw [evidence_real]
  exact Finset.sum_pos' (fun q _ => mul_nonneg (pathPrior_nonneg g q) (exp_pos _).le) ⟨p, Finset.mem_univ _, mul_pos hp (exp_pos _)⟩

theorem gam_sum_one (g : CGraph K) (h : Traversable g n) (v : Fin (n + 1) → Fin K → ℝ) (t : Fin (n + 1)) : ∑ s, gam g v t s = 1 := by
  unfold gam
  rw [← Finset.sum_div, Finset.sum_comm]
  simp only [Finset.sum_ite_eq, Finset.mem_univ, if_true]
  exact div_self (evidence_asLog_pos g h v).ne'

theorem gam_le_one (g : CGraph K) (h : Traversable g n) (v : Fin (n + 1) → Fin K → ℝ) (t : Fin (n + 1)) (s : Fin K) :
    gam g v t s ≤ 1 := by
  rw [← gam_sum_one g h v t]
  exact Finset.single_le_sum (f := fun s => gam g v t s) (fun s _ => gam_nonneg g v t s) (Finset.mem_univ s)

/-- The state posteriors returned by `posteriors` as real numbers. -/
def Posteriors (g : CGraph K) (v : Fin (n + 1) → Fin K → ℝ) (q : Fin (n + 1) → Fin K → ℝ) : Prop :=
  ∀ t s, statePosts g (asLog v) t s = some (q t s)

theorem posteriors_gam (g : CGraph K) (h : Traversable g n) (v : Fin (n + 1) → Fin K → ℝ) : Posteriors g v (gam g v) :=
  fun t s => C11_state_posterior_is_marginal g (asLog v) (evidence_asLog_pos g h v) t s

theorem posteriors_unique (g : CGraph K) (h : Traversable g n) (v q : Fin (n + 1) → Fin K → ℝ) (hq : Posteriors g v q) :
    q = gam g v := by
  funext t s
  have := (hq t s).symm.trans (posteriors_gam g h v t s)
  exact Option.some.inj this

theorem logEvidence_hasDerivAt (g : CGraph K) (h : Traversable g n) (v : ℝ → Fin (n + 1) → Fin K → ℝ)
    (v' : Fin (n + 1) → Fin K → ℝ) (x : ℝ) (hv : ∀ t s, HasDerivAt (fun y => v y t s) (v' t s) x) :
    HasDerivAt (fun y => logEvidence g (v y)) (∑ t, ∑ s, gam g (v x) t s * v' t s) x := by
  have h1 : ∀ p : Fin (n + 1) → Fin K, HasDerivAt (fun y => pathPrior g p * exp (∑ t, v y t (p t)))
      (pathPrior g p * (exp (∑ t, v x t (p t)) * ∑ t, v' t (p t))) x := by
    intro p
    have h2 : HasDerivAt (fun y => ∑ t, v y t (p t)) (∑ t, v' t (p t)) x :=
      HasDerivAt.fun_sum fun t _ => hv t (p t)
    exact h2.exp.const_mul _
  have h2 : HasDerivAt (fun y => evidence g (asLog (v y)))
      (∑ p : Fin (n + 1) → Fin K, pathPrior g p * (exp (∑ t, v x t (p t)) * ∑ t, v' t (p t))) x := by
    have e : (fun y => evidence g (asLog (v y))) = fun y => ∑ p : Fin (n + 1) → Fin K, pathPrior g p * exp (∑ t, v y t (p t)) := by
      funext y
      rw [evidence_real]
    rw [e]
    exact HasDerivAt.fun_sum fun p _ => h1 p
  have h3 := h2.log (evidence_asLog_pos g h (v x)).ne'
  refine h3.congr_deriv ?_
  rw [sum_gam, Finset.sum_div]
  refine Finset.sum_congr rfl fun p _ => ?_
  rw [pathWeight_real]
  ring

/-- **C176, HMM.** The gradient of the value of an HMM is the gradient of the log-probability of the utterance: along any curve of
log-likelihoods (weights of a network, features), the value with the responsibilities held constant, as autograd differentiates
it, and the log-probability have the same derivative at the current point; it is the sum of the state posteriors times the derivatives
of the log-likelihoods. -/
theorem C176_hmm_gradient (g : CGraph K) (h : Traversable g n) (v : ℝ → Fin (n + 1) → Fin K → ℝ) (v' : Fin (n + 1) → Fin K → ℝ) (x : ℝ)
    (hv : ∀ t s, HasDerivAt (fun y => v y t s) (v' t s) x) :
    ∃ q f, Posteriors g (v x) q ∧ (∀ y, hmmDetached g (v x) (v y) = .ok (f y)) ∧
      SameSlope f (fun y => logEvidence g (v y)) (∑ t, ∑ s, q t s * v' t s) x := by
  refine ⟨gam g (v x), fun y => ∑ t, ∑ s, v y t s * gam g (v x) t s, posteriors_gam g h _, fun y => ?_, ?_, ?_⟩
  · unfold hmmDetached
    rw [hmmResps_eq g (v x) (evidence_asLog_pos g h _)]
    rfl
  · refine HasDerivAt.fun_sum fun t _ => HasDerivAt.fun_sum fun s _ => ?_
    rw [mul_comm]
    exact (hv t s).mul_const _
  · exact logEvidence_hasDerivAt g h v v' x hv

/-- The value that is differentiated is the one reported, and the log-probability is the second value returned by `posteriors`. -/
theorem C176_hmm_values {X : Type} {S : ℕ} (g : CGraph S) (inner : SetModel X S) (st : inner.State) (a : ℝ) (u : Utt X)
    (h : Traversable g u.1) (v : Fin (u.1 + 1) → Fin S → ℝ) (hv : hmmLlhs inner st a u = .ok v) :
    hmmExpLlh g inner st a u = hmmDetached g v v ∧ meanLognorm g (asLog v) = ((logEvidence g v : ℝ) : LogR) := by
  constructor
  · unfold hmmExpLlh hmmDetached
    rw [hv]
    rfl
  · have hev := evidence_asLog_pos g h v
    rw [(C11_evidence_constant g (asLog v)).2]
    unfold logEvidence llog
    rw [if_neg hev.ne']

/-- Without any possible sequence of states there is no gradient: the responsibilities are NaN. -/
theorem C176_impossible (g : CGraph K) (hK : 0 < K) (h : ¬ Traversable g n) (v0 v : Fin (n + 1) → Fin K → ℝ) :
    hmmDetached g v0 v = .error .valueError := by
  have hev : evidence g (asLog v0) = 0 := by
    rw [evidence_real]
    refine Finset.sum_eq_zero fun p _ => ?_
    have : ¬ 0 < pathPrior g p := fun hp => h ⟨p, by rw [graphWeight_eq]; exact hp⟩
    rw [le_antisymm (not_lt.1 this) (pathPrior_nonneg g p), zero_mul]
  have h1 : hmmResps g v0 = .error .valueError := by
    obtain ⟨k, rfl⟩ : ∃ k, K = k + 1 := ⟨K - 1, by omega⟩
    unfold hmmResps
    rw [seqFin, seqFin]
    simp only [C11_zero_evidence_is_nan g (asLog v0) hev]
  unfold hmmDetached
  rw [h1]
  rfl

/-! ## What the log-probability looks like -/

/-- **C176, tangent.** The log-probability is convex in the log-likelihoods and lies above its tangents, whose slopes are the posteriors;
changing the log-likelihoods of frame `t` by at most `c t` changes it by at most the sum of the `c t`. -/
theorem C176_convex (g : CGraph K) (h : Traversable g n) :
    ConvexOn ℝ Set.univ (logEvidence g : (Fin (n + 1) → Fin K → ℝ) → ℝ) ∧
    (∀ v v' q : Fin (n + 1) → Fin K → ℝ, Posteriors g v q → logEvidence g v + ∑ t, ∑ s, q t s * (v' t s - v t s) ≤ logEvidence g v') ∧
    ∀ (v v' : Fin (n + 1) → Fin K → ℝ) (c : Fin (n + 1) → ℝ), (∀ t s, |v' t s - v t s| ≤ c t) →
      |logEvidence g v' - logEvidence g v| ≤ ∑ t, c t := by
  have gain : ∀ v v' : Fin (n + 1) → Fin K → ℝ, ∑ t, ∑ s, gam g v t s * (v' t s - v t s) ≤ logEvidence g v' - logEvidence g v :=
    fun v v' => evidence_gain g v v' (evidence_asLog_pos g h v)
  have half : ∀ (v v' : Fin (n + 1) → Fin K → ℝ) (c : Fin (n + 1) → ℝ), (∀ t s, |v' t s - v t s| ≤ c t) →
      logEvidence g v - logEvidence g v' ≤ ∑ t, c t := by
    intro v v' c hc
    have h1 := gain v v'
    have h2 : -∑ t, c t ≤ ∑ t, ∑ s, gam g v t s * (v' t s - v t s) := by
      rw [← Finset.sum_neg_distrib]
      refine Finset.sum_le_sum fun t _ => ?_
      have : ∑ s, gam g v t s * (-c t) = -c t := by
        rw [← Finset.sum_mul, gam_sum_one g h, one_mul]
      rw [← this]
      refine Finset.sum_le_sum fun s _ => mul_le_mul_of_nonneg_left ?_ (gam_nonneg g v t s)
      exact (abs_le.1 (hc t s)).1
    linarith
  refine ⟨⟨convex_univ, ?_⟩, ?_, ?_⟩
  · intro v _ v' _ a b ha hb hab
    set w := a • v + b • v' with hw
    have h1 := gain w v
    have h2 := gain w v'
    have h3 : a * ∑ t, ∑ s, gam g w t s * (v t s - w t s) + b * ∑ t, ∑ s, gam g w t s * (v' t s - w t s) = 0 := by
      simp only [Finset.mul_sum]
      rw [← Finset.sum_add_distrib]
      refine Finset.sum_eq_zero fun t _ => ?_
      rw [← Finset.sum_add_distrib]
      refine Finset.sum_eq_zero fun s _ => ?_
      have : w t s = a * v t s + b * v' t s := rfl
      rw [this]
      have hb' : b = 1 - a := by linarith
      rw [hb']
      ring
    have h4 := mul_le_mul_of_nonneg_left h1 ha
    have h5 := mul_le_mul_of_nonneg_left h2 hb
    simp only [smul_eq_mul]
    have h6 : a * logEvidence g w + b * logEvidence g w = logEvidence g w := by rw [← add_mul, hab, one_mul]
    linarith
  · intro v v' q hq
    rw [posteriors_unique g h v q hq]
    linarith [gain v v']
  · intro v v' c hc
    rw [abs_le]
    constructor
    · have := half v v' c hc
      linarith
    · exact half v' v c fun t s => by rw [abs_sub_comm]; exact hc t s

theorem boosted_weight (g : CGraph K) (v : Fin (n + 1) → Fin K → ℝ) (t : Fin (n + 1)) (s : Fin K) (x : ℝ) (p : Fin (n + 1) → Fin K) :
    pathWeight g (asLog (boosted v t s x)) p = pathWeight g (asLog v) p * if p t = s then exp x else 1 := by
  rw [pathWeight_real, pathWeight_real]
  unfold boosted
  rw [Finset.sum_add_distrib, exp_add]
  have : (∑ i, if i = t ∧ p i = s then x else 0) = if p t = s then x else 0 := by
    rw [Finset.sum_eq_single t]
    · simp
    · intro i _ hi
      rw [if_neg (fun hh => hi hh.1)]
    · intro hh; exact absurd (Finset.mem_univ _) hh
  rw [this]
  split
  · ring
  · rw [exp_zero]; ring

/-- **C176, one score.** Raising the log-likelihood of one state at one frame by `x` multiplies its odds at this frame by `exp x`; the
other states keep their proportions, and the log-probability grows by `log(1 + q (exp x - 1))`. -/
theorem C176_one_score (g : CGraph K) (h : Traversable g n) (v q q' : Fin (n + 1) → Fin K → ℝ) (t : Fin (n + 1)) (s : Fin K) (x : ℝ)
    (hq : Posteriors g v q) (hq' : Posteriors g (boosted v t s x) q') :
    q' t s = q t s * exp x / (1 + q t s * (exp x - 1)) ∧
    (∀ s', s' ≠ s → q' t s' = q t s' / (1 + q t s * (exp x - 1))) ∧
    logEvidence g (boosted v t s x) = logEvidence g v + log (1 + q t s * (exp x - 1)) ∧ 0 < 1 + q t s * (exp x - 1) := by
  have hv := evidence_asLog_pos g h v
  have hev : evidence g (asLog (boosted v t s x)) = evidence g (asLog v) * (1 + q t s * (exp x - 1)) := by
    rw [posteriors_unique g h v q hq]
    have e1 : evidence g (asLog (boosted v t s x)) = evidence g (asLog v)
        + (∑ p : Fin (n + 1) → Fin K, if p t = s then pathWeight g (asLog v) p else 0) * (exp x - 1) := by
      unfold evidence
      rw [Finset.sum_mul, ← Finset.sum_add_distrib]
      refine Finset.sum_congr rfl fun p _ => ?_
      rw [boosted_weight]
      split <;> ring
    rw [e1]
    unfold gam
    field_simp
  have hpos : 0 < 1 + q t s * (exp x - 1) := by
    have := evidence_asLog_pos g h (boosted v t s x)
    rw [hev] at this
    exact (pos_iff_pos_of_mul_pos this).1 hv
  have hne := hpos.ne'
  have hvne := hv.ne'
  refine ⟨?_, ?_, ?_, hpos⟩
  · rw [posteriors_unique g h _ q' hq']
    unfold gam
    rw [hev]
    have e2 : (∑ p : Fin (n + 1) → Fin K, if p t = s then pathWeight g (asLog (boosted v t s x)) p else 0)
        = (∑ p : Fin (n + 1) → Fin K, if p t = s then pathWeight g (asLog v) p else 0) * exp x := by
      rw [Finset.sum_mul]
      refine Finset.sum_congr rfl fun p _ => ?_
      rw [boosted_weight]
      split <;> ring
    rw [e2]
    have e3 : q t s = (∑ p : Fin (n + 1) → Fin K, if p t = s then pathWeight g (asLog v) p else 0) / evidence g (asLog v) := by
      rw [posteriors_unique g h v q hq]; rfl
    have e4 : (∑ p : Fin (n + 1) → Fin K, if p t = s then pathWeight g (asLog v) p else 0) = q t s * evidence g (asLog v) := by
      rw [e3]; field_simp
    rw [e4]
    field_simp
  · intro s' hs'
    rw [posteriors_unique g h _ q' hq']
    unfold gam
    rw [hev]
    have e2 : (∑ p : Fin (n + 1) → Fin K, if p t = s' then pathWeight g (asLog (boosted v t s x)) p else 0)
        = (∑ p : Fin (n + 1) → Fin K, if p t = s' then pathWeight g (asLog v) p else 0) := by
      refine Finset.sum_congr rfl fun p _ => ?_
      rw [boosted_weight]
      by_cases hp : p t = s'
      · rw [if_pos hp, if_pos hp, if_neg (by rw [hp]; exact hs'), mul_one]
      · rw [if_neg hp, if_neg hp]
    have e3 : q t s' = (∑ p : Fin (n + 1) → Fin K, if p t = s' then pathWeight g (asLog v) p else 0) / evidence g (asLog v) := by
      rw [posteriors_unique g h v q hq]; rfl
    rw [e2, e3, div_div]
  · unfold logEvidence
    rw [hev, log_mul hvne hne]

/-! ## Transitions -/

theorem tilted_weight (g : CGraph K) (δ : Fin K → Fin K → ℝ) (x : ℝ) (llhs : Fin (n + 1) → Frame K) (p : Fin (n + 1) → Fin K) :
    pathWeight (tilted g δ x) llhs p = pathWeight g llhs p * exp (x * ∑ i : Fin n, δ (p i.castSucc) (p i.succ)) := by
  unfold pathWeight tilted
  dsimp only
  simp only [lexp_add, lexp_coe]
  rw [Finset.prod_mul_distrib, ← Real.exp_sum, ← Finset.mul_sum]
  ring

/-- **C176, transitions.** The derivatives of the log-probability in the log-probabilities of the transitions are the expected counts of
the transitions: the transition posteriors summed over the frames. -/
theorem C176_transitions (g : CGraph K) (llhs : Fin (n + 1) → Frame K) (hev : 0 < evidence g llhs) (δ : Fin K → Fin K → ℝ) :
    HasDerivAt (fun x => log (evidence (tilted g δ x) llhs)) (∑ s, ∑ d, (∑ i : Fin n, transPosts g llhs i s d) * δ s d) 0 := by
  have e0 : evidence (tilted g δ 0) llhs = evidence g llhs := by
    unfold evidence
    refine Finset.sum_congr rfl fun p _ => ?_
    rw [tilted_weight, zero_mul, exp_zero, mul_one]
  have h1 : HasDerivAt (fun x => evidence (tilted g δ x) llhs)
      (∑ p : Fin (n + 1) → Fin K, pathWeight g llhs p * ∑ i : Fin n, δ (p i.castSucc) (p i.succ)) 0 := by
    have e : (fun x => evidence (tilted g δ x) llhs) = fun x => ∑ p : Fin (n + 1) → Fin K,
        pathWeight g llhs p * exp (x * ∑ i : Fin n, δ (p i.castSucc) (p i.succ)) := by
      funext x
      exact Finset.sum_congr rfl fun p _ => tilted_weight g δ x llhs p
    rw [e]
    refine HasDerivAt.fun_sum fun p _ => ?_
    have := ((hasDerivAt_id (0 : ℝ)).mul_const (∑ i : Fin n, δ (p i.castSucc) (p i.succ))).exp.const_mul (pathWeight g llhs p)
    simpa using this
  have h2 := h1.log (by rw [e0]; exact hev.ne')
  refine h2.congr_deriv ?_
  rw [e0]
  have h3 : ∀ (s d : Fin K) (i : Fin n), transPosts g llhs i s d * δ s d = (∑ p : Fin (n + 1) → Fin K,
      (if p i.castSucc = s ∧ p i.succ = d then pathWeight g llhs p * δ (p i.castSucc) (p i.succ) else 0)) / evidence g llhs := by
    intro s d i
    rw [C12_transition_posterior_is_marginal g llhs hev, div_mul_eq_mul_div, Finset.sum_mul]
    congr 1
    refine Finset.sum_congr rfl fun p _ => ?_
    by_cases hp : p i.castSucc = s ∧ p i.succ = d
    · rw [if_pos hp, if_pos hp, hp.1, hp.2]
    · rw [if_neg hp, if_neg hp, zero_mul]
  simp only [Finset.sum_mul, h3]
  simp only [← Finset.sum_div]
  congr 1
  have h4 : ∀ s d : Fin K, (∑ i : Fin n, ∑ p : Fin (n + 1) → Fin K,
      (if p i.castSucc = s ∧ p i.succ = d then pathWeight g llhs p * δ (p i.castSucc) (p i.succ) else 0))
      = ∑ p : Fin (n + 1) → Fin K, ∑ i : Fin n,
      (if p i.castSucc = s ∧ p i.succ = d then pathWeight g llhs p * δ (p i.castSucc) (p i.succ) else 0) :=
    fun s d => Finset.sum_comm
  simp only [h4]
  have h5 : ∀ s : Fin K, (∑ d : Fin K, ∑ p : Fin (n + 1) → Fin K, ∑ i : Fin n,
      (if p i.castSucc = s ∧ p i.succ = d then pathWeight g llhs p * δ (p i.castSucc) (p i.succ) else 0))
      = ∑ p : Fin (n + 1) → Fin K, ∑ i : Fin n, (if p i.castSucc = s then pathWeight g llhs p * δ (p i.castSucc) (p i.succ) else 0) := by
    intro s
    rw [Finset.sum_comm]
    refine Finset.sum_congr rfl fun p _ => ?_
    rw [Finset.sum_comm]
    refine Finset.sum_congr rfl fun i _ => ?_
    by_cases hp : p i.castSucc = s
    · simp [hp]
    · simp [hp]
  simp only [h5]
  rw [Finset.sum_comm]
  refine Finset.sum_congr rfl fun p _ => ?_
  rw [Finset.sum_comm, Finset.mul_sum]
  refine Finset.sum_congr rfl fun i _ => ?_
  simp

/-! ## Viterbi training -/

theorem bestPath_weight {am : Frame K → Fin K} (ham : IsArgmax am) (g : CGraph K) (llhs : Fin (n + 1) → Frame K)
    (p : Fin (n + 1) → Fin K) : pathWeight g llhs p ≤ pathWeight g llhs (bestPath am g llhs) := by
  rw [← lexp_pathScore, ← lexp_pathScore, lexp_le_lexp]
  exact C13_best_path_optimal ham g llhs p

theorem viterbiDetached_eq (am : Frame K → Fin K) (g : CGraph K) (v0 v : Fin (n + 1) → Fin K → ℝ) :
    viterbiDetached am g v0 v = ∑ t, v t (bestPath am g (asLog v0) t) := by
  unfold viterbiDetached
  refine Finset.sum_congr rfl fun t _ => ?_
  simp

theorem logPath_eq (g : CGraph K) (v : Fin (n + 1) → Fin K → ℝ) (p : Fin (n + 1) → Fin K) (hp : 0 < graphWeight g p) :
    logPath g v p = log (graphWeight g p) + ∑ t, v t (p t) := by
  unfold logPath
  rw [pathWeight_real, ← graphWeight_eq, log_mul hp.ne' (exp_pos _).ne', log_exp]

theorem best_feasible {am : Frame K → Fin K} (ham : IsArgmax am) (g : CGraph K) (h : Traversable g n) (v : Fin (n + 1) → Fin K → ℝ) :
    0 < graphWeight g (bestPath am g (asLog v)) := by
  obtain ⟨p, hp⟩ := h
  have h1 := bestPath_weight ham g (asLog v) p
  rw [pathWeight_real, pathWeight_real, ← graphWeight_eq, ← graphWeight_eq] at h1
  have h2 := lt_of_lt_of_le (mul_pos hp (exp_pos _)) h1
  exact (pos_iff_pos_of_mul_pos h2).2 (exp_pos _)

/-- **C176, Viterbi.** With the best path instead of the posteriors the value differentiated by autograd is tangent from below to the
log-probability of the best path, and has its derivative where the best path is unique. -/
theorem C176_viterbi {am : Frame K → Fin K} (ham : IsArgmax am) (g : CGraph K) (h : Traversable g n) :
    (∀ v0 v : Fin (n + 1) → Fin K → ℝ, logPath g v0 (bestPath am g (asLog v0)) + (viterbiDetached am g v0 v - viterbiDetached am g v0 v0)
      ≤ logPath g v (bestPath am g (asLog v))) ∧
    ∀ (v : ℝ → Fin (n + 1) → Fin K → ℝ) (v' : Fin (n + 1) → Fin K → ℝ) (x : ℝ),
      (∀ t s, HasDerivAt (fun y => v y t s) (v' t s) x) →
      (∀ p, p ≠ bestPath am g (asLog (v x)) → pathWeight g (asLog (v x)) p < pathWeight g (asLog (v x)) (bestPath am g (asLog (v x)))) →
      SameSlope (fun y => viterbiDetached am g (v x) (v y)) (fun y => logPath g (v y) (bestPath am g (asLog (v y))))
        (∑ t, v' t (bestPath am g (asLog (v x)) t)) x := by
  constructor
  · intro v0 v
    have hf := best_feasible ham g h v0
    have h1 := bestPath_weight ham g (asLog v) (bestPath am g (asLog v0))
    have hpos : 0 < pathWeight g (asLog v) (bestPath am g (asLog v0)) := by
      rw [pathWeight_real, ← graphWeight_eq]
      exact mul_pos hf (exp_pos _)
    have h2 : logPath g v (bestPath am g (asLog v0)) ≤ logPath g v (bestPath am g (asLog v)) := log_le_log hpos h1
    rw [logPath_eq g v _ hf] at h2
    rw [logPath_eq g v0 _ hf, viterbiDetached_eq, viterbiDetached_eq]
    linarith
  · intro v v' x hv hu
    set p0 := bestPath am g (asLog (v x)) with hp0
    have hf : 0 < graphWeight g p0 := best_feasible ham g h (v x)
    have hd : HasDerivAt (fun y => ∑ t, v y t (p0 t)) (∑ t, v' t (p0 t)) x := HasDerivAt.fun_sum fun t _ => hv t (p0 t)
    constructor
    · have e : (fun y => viterbiDetached am g (v x) (v y)) = fun y => ∑ t, v y t (p0 t) := by
        funext y
        rw [viterbiDetached_eq]
      rw [e]
      exact hd
    · have hc : ∀ p : Fin (n + 1) → Fin K, ContinuousAt (fun y => pathWeight g (asLog (v y)) p) x := by
        intro p
        simp only [pathWeight_real]
        have : HasDerivAt (fun y => ∑ t, v y t (p t)) (∑ t, v' t (p t)) x := HasDerivAt.fun_sum fun t _ => hv t (p t)
        exact (this.exp.const_mul _).continuousAt
      have hev : ∀ᶠ y in 𝓝 x, ∀ p, p ≠ p0 → pathWeight g (asLog (v y)) p < pathWeight g (asLog (v y)) p0 := by
        rw [eventually_all]
        intro p
        by_cases hp : p = p0
        · exact Eventually.of_forall fun y hne => absurd hp hne
        · exact ((hc p).eventually_lt (hc p0) (hu p hp)).mono fun y hy _ => hy
      have heq : (fun y => logPath g (v y) (bestPath am g (asLog (v y)))) =ᶠ[𝓝 x] fun y => log (graphWeight g p0) + ∑ t, v y t (p0 t) := by
        refine hev.mono fun y hy => ?_
        have : bestPath am g (asLog (v y)) = p0 := by
          by_contra hne
          exact absurd (bestPath_weight ham g (asLog (v y)) p0) (not_le.2 (hy _ hne))
        show logPath g (v y) (bestPath am g (asLog (v y))) = _
        rw [this, logPath_eq g (v y) p0 hf]
      exact (hd.const_add _).congr_of_eventuallyEq heq

/-! ## Mixtures -/

/-- **C176, mixture.** For a mixture the value is the log-likelihood itself, and the function autograd differentiates has its gradient, the
responsibilities. -/
theorem C176_mixture (hK : 0 < K) (lw : Fin K → ℝ) (v : ℝ → Fin K → ℝ) (v' : Fin K → ℝ) (x : ℝ)
    (hv : ∀ k, HasDerivAt (fun y => v y k) (v' k) x) :
    mixDetached lw (v x) (v x) = (mixLocal lw (v x)).value ∧
    SameSlope (fun y => mixDetached lw (v x) (v y)) (fun y => (mixLocal lw (v y)).value)
      (∑ k, (mixLocal lw (v x)).resps k * v' k) x := by
  refine ⟨rfl, ?_, ?_⟩
  · unfold mixDetached
    refine HasDerivAt.sub_const _ ?_
    refine HasDerivAt.fun_sum fun k _ => ?_
    rw [mul_comm]
    exact (hv k).mul_const _
  · have e : (fun y => (mixLocal lw (v y)).value) = fun y => log (∑ k, exp (lw k) * exp (v y k)) := by
      funext y
      exact C44_value hK lw (v y)
    rw [e]
    have hpos : 0 < ∑ k, exp (lw k) * exp (v x k) :=
      Finset.sum_pos (fun k _ => mul_pos (exp_pos _) (exp_pos _)) ⟨⟨0, hK⟩, Finset.mem_univ _⟩
    have h1 : HasDerivAt (fun y => ∑ k, exp (lw k) * exp (v y k)) (∑ k, exp (lw k) * (exp (v x k) * v' k)) x :=
      HasDerivAt.fun_sum fun k _ => (hv k).exp.const_mul _
    refine (h1.log hpos.ne').congr_deriv ?_
    rw [Finset.sum_div]
    refine Finset.sum_congr rfl fun k _ => ?_
    simp only [mixLocal]
    have e2 : ∑ k, exp (v x k + lw k) = ∑ k, exp (lw k) * exp (v x k) :=
      Finset.sum_congr rfl fun k _ => by rw [exp_add, mul_comm]
    rw [e2, exp_sub, exp_log hpos, exp_add]
    ring

/-! ## The hypotheses can be met -/

theorem two_traversable : Traversable twoGraph 1 := ⟨fun _ => 0, by rw [two_weight]; norm_num⟩

example : ∃ q f, Posteriors twoGraph leanTwo q ∧ (∀ y : ℝ, hmmDetached twoGraph leanTwo (fun t s => leanTwo t s + y * (t.1 + s.1)) = .ok (f y)) ∧
    SameSlope f (fun y => logEvidence twoGraph (fun t s => leanTwo t s + y * (t.1 + s.1)))
      (∑ t : Fin (1 + 1), ∑ s : Fin 2, q t s * ((t.1 : ℝ) + s.1)) 0 := by
  obtain ⟨q, f, h1, h2, h3⟩ := C176_hmm_gradient twoGraph two_traversable (fun y t s => leanTwo t s + y * (t.1 + s.1))
    (fun t s => (t.1 : ℝ) + s.1) 0 fun t s => by
      simpa using ((hasDerivAt_id (0 : ℝ)).mul_const ((t.1 : ℝ) + s.1)).const_add (leanTwo t s)
  simp only [zero_mul, add_zero] at h1 h2
  exact ⟨q, f, h1, h2, h3⟩

example : ConvexOn ℝ Set.univ (logEvidence twoGraph : (Fin (1 + 1) → Fin 2 → ℝ) → ℝ) := (C176_convex twoGraph two_traversable).1

example : ∃ q q', Posteriors twoGraph leanTwo q ∧ Posteriors twoGraph (boosted leanTwo 1 0 (log 3)) q' ∧
    q' 1 0 = q 1 0 * 3 / (1 + q 1 0 * 2) := by
  refine ⟨_, _, posteriors_gam _ two_traversable _, posteriors_gam _ two_traversable _, ?_⟩
  have := (C176_one_score twoGraph two_traversable leanTwo _ _ 1 0 (log 3) (posteriors_gam _ two_traversable _)
    (posteriors_gam _ two_traversable _)).1
  rw [exp_log (by norm_num)] at this
  rw [this]
  norm_num

example : HasDerivAt (fun x => log (evidence (tilted demoGraph (fun s d => s.1 - 2 * d.1) x) demoLlhs))
    (∑ s : Fin 2, ∑ d : Fin 2, (∑ i : Fin 2, transPosts demoGraph demoLlhs i s d) * ((s.1 : ℝ) - 2 * d.1)) 0 :=
  C176_transitions demoGraph demoLlhs demo_evidence _

example : SameSlope (fun y => viterbiDetached demoArgmax twoGraph (fun t s => 1 * leanTwo t s) (fun t s => y * leanTwo t s))
    (fun y => logPath twoGraph (fun t s => y * leanTwo t s) (bestPath demoArgmax twoGraph (asLog fun t s => y * leanTwo t s)))
    (∑ t : Fin (1 + 1), leanTwo t (bestPath demoArgmax twoGraph (asLog fun t s => 1 * leanTwo t s) t)) 1 := by
  refine (C176_viterbi demoArgmax_spec twoGraph two_traversable).2 (fun y t s => y * leanTwo t s) leanTwo 1 (fun t s => ?_) ?_
  · simpa using (hasDerivAt_id (1 : ℝ)).mul_const (leanTwo t s)
  · have key : ∀ p : Fin (1 + 1) → Fin 2, p ≠ (fun _ => 1) → pathWeight twoGraph (asLog fun t s => 1 * leanTwo t s) p
        < pathWeight twoGraph (asLog fun t s => 1 * leanTwo t s) fun _ => 1 := by
      intro p hp
      rw [pathWeight_real, pathWeight_real, ← graphWeight_eq, ← graphWeight_eq, two_weight, two_weight, one_mul, one_mul]
      have := leanTwo_best p hp
      unfold acousticScore at this
      simpa using exp_lt_exp.2 this
    have hb : bestPath demoArgmax twoGraph (asLog fun t s => 1 * leanTwo t s) = fun _ => 1 := by
      by_contra hne
      exact absurd (bestPath_weight demoArgmax_spec twoGraph (asLog fun t s => 1 * leanTwo t s) fun _ => 1) (not_le.2 (key _ hne))
    rw [hb]
    exact key

example : SameSlope (fun y => mixDetached ![log (1 / 3), log (2 / 3)] (fun k => (2 : ℝ) * k.1) (fun k => y * k.1))
    (fun y => (mixLocal ![log (1 / 3), log (2 / 3)] (fun k => y * k.1)).value)
    (∑ k : Fin 2, (mixLocal ![log (1 / 3), log (2 / 3)] (fun k => (2 : ℝ) * k.1)).resps k * k.1) 2 :=
  (C176_mixture (K := 2) (by norm_num) ![log (1 / 3), log (2 / 3)] (fun y k => y * k.1) (fun k => k.1) 2 fun k => by
    simpa using (hasDerivAt_id (2 : ℝ)).mul_const ((k.1 : ℕ) : ℝ)).2

example : hmmExpLlh coinGraph (familySet (dirFam 2) 2) coinState 1 coinUtt
      = hmmDetached coinGraph (scoresOf (familySet (dirFam 2) 2) coinState 1 coinUtt) (scoresOf (familySet (dirFam 2) 2) coinState 1 coinUtt) := by
  refine (C176_hmm_values coinGraph (familySet (dirFam 2) 2) coinState 1 coinUtt ?_ _
    (hmmLlhs_eq _ _ _ (C87_categoricalset (by norm_num) 2) coinState coin_valid 1 coinUtt coinUtt_valid)).1
  exact ⟨fun _ => 0, by rw [graphWeight_eq, coin_prior]; positivity⟩

/-- A graph with no way from its start to its end. -/
noncomputable def cutGraph : CGraph 2 := ⟨![0, ⊥], ![⊥, 0], fun _ _ => ⊥⟩

example (v0 v : Fin (1 + 1) → Fin 2 → ℝ) : hmmDetached cutGraph v0 v = .error .valueError := by
  refine C176_impossible cutGraph (by norm_num) ?_ v0 v
  rintro ⟨p, hp⟩
  unfold graphWeight at hp
  simp [cutGraph] at hp

end Verif.Props
