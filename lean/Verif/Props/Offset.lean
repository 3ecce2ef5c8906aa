import Verif.Props.HMM

/-!
# C170 — what inference on a graph does not depend on, and how the best path compares with the sum over the paths
-/

namespace Verif.Props

open Verif Verif.Spec Finset

variable {K n : ℕ}

/-- The log-likelihoods with a number per frame added to all the states. -/
noncomputable def offset (c : Fin (n + 1) → ℝ) (llhs : Fin (n + 1) → Frame K) : Fin (n + 1) → Frame K :=
  fun t s => llhs t s + ((c t : ℝ) : LogR)

lemma lexp_pathScore (g : CGraph K) (llhs : Fin (n + 1) → Frame K) (p : Fin (n + 1) → Fin K) :
    lexp (pathScore g llhs p) = pathWeight g llhs p := by
  unfold pathScore pathWeight
  simp only [lexp_add, lexp_sum]

lemma pathWeight_offset (g : CGraph K) (llhs : Fin (n + 1) → Frame K) (c : Fin (n + 1) → ℝ)
    (p : Fin (n + 1) → Fin K) : pathWeight g (offset c llhs) p = Real.exp (∑ t, c t) * pathWeight g llhs p := by
  unfold pathWeight offset
  simp only [lexp_add, Finset.prod_mul_distrib, lexp_coe, Real.exp_sum]
  ring

lemma evidence_offset (g : CGraph K) (llhs : Fin (n + 1) → Frame K) (c : Fin (n + 1) → ℝ) :
    evidence g (offset c llhs) = Real.exp (∑ t, c t) * evidence g llhs := by
  unfold evidence
  simp only [pathWeight_offset, Finset.mul_sum]

lemma evidence_nonneg (g : CGraph K) (llhs : Fin (n + 1) → Frame K) : 0 ≤ evidence g llhs :=
  Finset.sum_nonneg fun p _ => pathWeight_nonneg g llhs p

/-- **C170.** A number added to the log-likelihoods of all the states of a frame (a constant of the densities, a scale of the
features) changes neither the state posteriors nor the transition posteriors; it is added to the log-evidence; and the decoded
sequence is still a best one for the original scores. -/
theorem C170_offset (g : CGraph K) (llhs : Fin (n + 1) → Frame K) (c : Fin (n + 1) → ℝ) :
    (∀ t s, statePosts g (offset c llhs) t s = statePosts g llhs t s) ∧
    (∀ i s d, transPosts g (offset c llhs) i s d = transPosts g llhs i s d) ∧
    meanLognorm g (offset c llhs) = meanLognorm g llhs + ((∑ t, c t : ℝ) : LogR) ∧
    (∀ am : Frame K → Fin K, IsArgmax am → ∀ p,
      pathScore g llhs p ≤ pathScore g llhs (bestPath am g (offset c llhs))) := by
  have he : 0 < Real.exp (∑ t, c t) := Real.exp_pos _
  refine ⟨fun t s => ?_, fun i s d => ?_, ?_, fun am ham p => ?_⟩
  · rcases (evidence_nonneg g llhs).eq_or_lt with h | h
    · rw [C11_zero_evidence_is_nan g llhs h.symm, C11_zero_evidence_is_nan]
      rw [evidence_offset, ← h, mul_zero]
    · have h' : 0 < evidence g (offset c llhs) := by rw [evidence_offset]; positivity
      rw [C11_state_posterior_is_marginal g _ h', C11_state_posterior_is_marginal g _ h, evidence_offset]
      simp only [pathWeight_offset, ← mul_ite_zero]
      rw [← Finset.mul_sum, mul_div_mul_left _ _ he.ne']
  · rcases (evidence_nonneg g llhs).eq_or_lt with h | h
    · rw [C12_zero_evidence_is_zero g llhs h.symm, C12_zero_evidence_is_zero]
      rw [evidence_offset, ← h, mul_zero]
    · have h' : 0 < evidence g (offset c llhs) := by rw [evidence_offset]; positivity
      rw [C12_transition_posterior_is_marginal g _ h', C12_transition_posterior_is_marginal g _ h, evidence_offset]
      simp only [pathWeight_offset, ← mul_ite_zero]
      rw [← Finset.mul_sum, mul_div_mul_left _ _ he.ne']
  · rw [(C11_evidence_constant g _).2, (C11_evidence_constant g _).2]
    apply lexp_injective
    rw [lexp_add, lexp_llog (evidence_nonneg _ _), lexp_llog (evidence_nonneg _ _), evidence_offset, lexp_coe, mul_comm]
  · have h := C13_best_path_optimal ham g (offset c llhs) p
    rw [← lexp_le_lexp, lexp_pathScore, lexp_pathScore, pathWeight_offset, pathWeight_offset] at h
    rw [← lexp_le_lexp, lexp_pathScore, lexp_pathScore]
    exact le_of_mul_le_mul_left h he

/-- The number of the sequences of states that are possible. -/
noncomputable def possible (g : CGraph K) (llhs : Fin (n + 1) → Frame K) : ℕ :=
  by classical exact (Finset.univ.filter fun p : Fin (n + 1) → Fin K => pathScore g llhs p ≠ ⊥).card

/-- **C170.** The score of the decoded sequence is at most the log-evidence, and falls short of it by at most the logarithm of
the number of possible sequences, itself at most the number of frames times the logarithm of the number of states. -/
theorem C170_best_path_and_evidence {am : Frame K → Fin K} (ham : IsArgmax am) (g : CGraph K)
    (llhs : Fin (n + 1) → Frame K) :
    pathScore g llhs (bestPath am g llhs) ≤ meanLognorm g llhs ∧
    meanLognorm g llhs ≤ pathScore g llhs (bestPath am g llhs) + llog (possible g llhs) ∧
    possible g llhs ≤ K ^ (n + 1) := by
  classical
  rw [(C11_evidence_constant g _).2]
  refine ⟨?_, ?_, ?_⟩
  · rw [← lexp_le_lexp, lexp_llog (evidence_nonneg _ _), lexp_pathScore]
    exact Finset.single_le_sum (f := pathWeight g llhs) (fun p _ => pathWeight_nonneg g llhs p) (mem_univ _)
  · rw [← lexp_le_lexp, lexp_add, lexp_llog (evidence_nonneg _ _), lexp_llog (Nat.cast_nonneg _), lexp_pathScore]
    unfold evidence possible
    rw [← Finset.sum_filter_of_ne (p := fun p => pathScore g llhs p ≠ ⊥)
      (fun p _ hp h => hp (by rw [← lexp_pathScore, h]; rfl)), mul_comm, ← nsmul_eq_mul]
    refine (Finset.sum_le_card_nsmul _ _ (pathWeight g llhs (bestPath am g llhs)) fun p _ => ?_).trans (le_of_eq ?_)
    · rw [← lexp_pathScore, ← lexp_pathScore, lexp_le_lexp]
      exact C13_best_path_optimal ham g llhs p
    · congr
  · unfold possible
    refine (Finset.card_le_univ _).trans (le_of_eq ?_)
    simp

/-- **C170.** A graph whose weights are all at least those of another gives every utterance at least its evidence and its best
score: restricting a decoding graph to a transcription never increases them. -/
theorem C170_monotone {am : Frame K → Fin K} (ham : IsArgmax am) (g g' : CGraph K) (llhs : Fin (n + 1) → Frame K)
    (hi : ∀ s, g.init s ≤ g'.init s) (ht : ∀ s d, g.trans s d ≤ g'.trans s d) (hf : ∀ s, g.final s ≤ g'.final s) :
    meanLognorm g llhs ≤ meanLognorm g' llhs ∧
    pathScore g llhs (bestPath am g llhs) ≤ pathScore g' llhs (bestPath am g' llhs) := by
  have key : ∀ p, pathScore g llhs p ≤ pathScore g' llhs p := fun p => by
    unfold pathScore
    exact add_le_add (add_le_add (add_le_add (hi _) (Finset.sum_le_sum fun i _ => ht _ _)) le_rfl) (hf _)
  refine ⟨?_, (key _).trans (C13_best_path_optimal ham g' llhs _)⟩
  rw [(C11_evidence_constant g _).2, (C11_evidence_constant g' _).2, ← lexp_le_lexp,
    lexp_llog (evidence_nonneg _ _), lexp_llog (evidence_nonneg _ _)]
  refine Finset.sum_le_sum fun p _ => ?_
  rw [← lexp_pathScore, ← lexp_pathScore, lexp_le_lexp]
  exact key p

/-- **C170.** When only one sequence is possible the posteriors are certain: the state posteriors are those of this sequence,
the decoded sequence is this one, and the log-evidence its score. -/
theorem C170_only_path {am : Frame K → Fin K} (ham : IsArgmax am) (g : CGraph K) (llhs : Fin (n + 1) → Frame K)
    (p : Fin (n + 1) → Fin K) (hp : pathScore g llhs p ≠ ⊥) (ho : ∀ q, pathScore g llhs q ≠ ⊥ → q = p) :
    (∀ t s, statePosts g llhs t s = some (if p t = s then 1 else 0)) ∧
    bestPath am g llhs = p ∧ meanLognorm g llhs = pathScore g llhs p := by
  have hz : ∀ q, q ≠ p → pathWeight g llhs q = 0 := fun q hq => by
    rw [← lexp_pathScore, lexp_eq_zero_iff]
    by_contra h
    exact hq (ho q h)
  have hev : evidence g llhs = pathWeight g llhs p :=
    Finset.sum_eq_single p (fun q _ hq => hz q hq) (fun h => absurd (mem_univ _) h)
  have hpos : 0 < evidence g llhs := by rw [hev, ← lexp_pathScore, lexp_pos_iff]; exact hp
  refine ⟨fun t s => ?_, ?_, ?_⟩
  · rw [C11_state_posterior_is_marginal g llhs hpos,
      Finset.sum_eq_single p (fun q _ hq => by rw [hz q hq, ite_self]) (fun h => absurd (mem_univ _) h), ← hev]
    split_ifs
    · rw [div_self hpos.ne']
    · rw [zero_div]
  · refine ho _ fun hb => hp ?_
    have := C13_best_path_optimal ham g llhs p
    rw [hb, le_bot_iff] at this
    exact this
  · rw [(C11_evidence_constant g _).2, hev, ← lexp_pathScore, llog_lexp]

/-- Two frames without information. -/
noncomputable def flatLlhs : Fin (1 + 1) → Frame 2 := fun _ _ => 0

/-- Two frames of the left-to-right graph: the only sequence is 0, 1. -/
example : bestPath demoArgmax demoGraph flatLlhs = ![0, 1] ∧ statePosts demoGraph flatLlhs 1 1 = some 1 := by
  have hs : ∀ q : Fin 2 → Fin 2, pathScore demoGraph flatLlhs q ≠ ⊥ → q = ![0, 1] := by
    intro q hq
    have h0 : q 0 = 0 := by
      by_contra h
      have h1 : q 0 = 1 := by omega
      apply hq
      simp [pathScore, demoGraph, h1]
    have h1 : q 1 = 1 := by
      by_contra h
      have h1 : q 1 = 0 := by omega
      apply hq
      simp [pathScore, demoGraph, h1, Fin.last]
    funext i
    fin_cases i
    · exact h0
    · exact h1
  obtain ⟨h1, h2, -⟩ := C170_only_path demoArgmax_spec demoGraph flatLlhs ![0, 1]
    (by simp [pathScore, demoGraph, flatLlhs]) hs
  refine ⟨h2, (h1 1 1).trans ?_⟩
  rw [if_pos (by decide)]

/-- A constant of -100 in every frame. -/
example (t : Fin 3) (s : Fin 2) :
    statePosts demoGraph (offset (fun _ => -100) demoLlhs) t s = statePosts demoGraph demoLlhs t s :=
  (C170_offset demoGraph demoLlhs fun _ => -100).1 t s

/-- The left-to-right graph without its loops. -/
noncomputable def noLoops : CGraph 2 where
  init := demoGraph.init
  final := demoGraph.final
  trans s d := if s = d then ⊥ else demoGraph.trans s d

/-- It allows less. -/
example : meanLognorm noLoops demoLlhs ≤ meanLognorm demoGraph demoLlhs :=
  (C170_monotone (n := 2) demoArgmax_spec noLoops demoGraph demoLlhs (fun _ => le_rfl)
    (fun s d => by
      by_cases h : s = d
      · exact (if_pos h : noLoops.trans s d = ⊥).trans_le bot_le
      · exact ((if_neg h : noLoops.trans s d = demoGraph.trans s d)).le) fun _ => le_rfl).1

example : pathScore demoGraph demoLlhs (bestPath demoArgmax demoGraph demoLlhs) ≤ meanLognorm demoGraph demoLlhs :=
  (C170_best_path_and_evidence demoArgmax_spec demoGraph demoLlhs).1

end Verif.Props
