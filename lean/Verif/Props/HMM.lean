import Verif.Lemmas.HMM
import Mathlib.Algebra.BigOperators.Field
import Mathlib.Tactic.FieldSimp
import Mathlib.Tactic.FinCases
import Mathlib.Tactic.NormNum

/-!
# Properties C10 - C14: forward, posteriors, transition posteriors, Viterbi
-/

namespace Verif.Props

open Verif Verif.Spec Finset

variable {K n : ℕ}

/-! ## A concrete graph used in the examples: two states, left to right. -/

/-- Two-state left-to-right graph: start in 0, end in 1. -/
noncomputable def demoGraph : CGraph 2 where
  init := ![0, ⊥]
  final := ![⊥, 0]
  trans := ![![((-1 : ℝ) : LogR), ((-2 : ℝ) : LogR)], ![⊥, 0]]

/-- Three frames of log-likelihoods. -/
noncomputable def demoLlhs : Fin 3 → Frame 2 :=
  ![![((-1 : ℝ) : LogR), ((-3 : ℝ) : LogR)], ![((-2 : ℝ) : LogR), ((-1 : ℝ) : LogR)],
    ![((-5 : ℝ) : LogR), ((-1 : ℝ) : LogR)]]

/-- **C10.** The forward variable of state `s` at frame `t` is the log of the sum, over all state
sequences for the frames `0..t` that end in `s`, of initial × transition × emission
probabilities. -/
theorem C10_forward_is_path_sum (g : CGraph K) (llhs : Fin (n + 1) → Frame K)
    (t : Fin (n + 1)) (s : Fin K) :
    logAlphas g llhs t s
      = llog (∑ p : Fin (t.val + 1) → Fin K, if p (Fin.last t.val) = s
          then prefixWeight g (fun i => llhs ⟨i.val, by omega⟩) p else 0) := by
  obtain ⟨t, ht⟩ := t
  have htr : ∀ (j : ℕ) (hj : j ≤ t) (s : Fin K), logAlphas g llhs ⟨j, by omega⟩ s
      = logAlphas g (fun i : Fin (t + 1) => llhs ⟨i.val, by omega⟩) ⟨j, by omega⟩ s := by
    intro j
    induction j with
    | zero => intro _ s; rfl
    | succ j ih =>
      intro hj s
      have e1 : logAlphas g llhs ⟨j + 1, by omega⟩ s = llhs ⟨j + 1, by omega⟩ s
          + lse (fun x => logAlphas g llhs ⟨j, by omega⟩ x + g.trans x s) := rfl
      have e2 : logAlphas g (fun i : Fin (t + 1) => llhs ⟨i.val, by omega⟩) ⟨j + 1, by omega⟩ s
          = llhs ⟨j + 1, by omega⟩ s
          + lse (fun x => logAlphas g (fun i : Fin (t + 1) => llhs ⟨i.val, by omega⟩)
              ⟨j, by omega⟩ x + g.trans x s) := rfl
      rw [e1, e2]
      simp only [ih (by omega)]
  rw [htr t le_rfl s]
  set l' : Fin (t + 1) → Frame K := fun i => llhs ⟨i.val, by omega⟩
  have key := sum_chainW_state (gA g l') (gM g l') (fun _ => (1 : ℝ)) (Fin.last t) s
  have hB : chainB (gM g l') (fun _ => (1 : ℝ)) (Fin.last t) = fun _ => 1 := Fin.reverseInduction_last
  rw [hB, mul_one, ← lexp_logAlphas] at key
  have hl : (⟨t, by omega⟩ : Fin (t + 1)) = Fin.last t := rfl
  rw [hl, ← llog_lexp (logAlphas g l' (Fin.last t) s), ← key]
  congr 1
  refine Finset.sum_congr rfl fun p _ => ?_
  have : chainW (gA g l') (gM g l') (fun _ => (1 : ℝ)) p = prefixWeight g l' p := by
    unfold chainW prefixWeight gA gM
    rw [Finset.prod_mul_distrib, Fin.prod_univ_succ (fun t => lexp (l' t (p t)))]
    ring
  rw [this]

example : logAlphas demoGraph demoLlhs 1 1 = llog (∑ p : Fin 2 → Fin 2, if p (Fin.last 1) = 1
    then prefixWeight demoGraph (fun i => demoLlhs ⟨i.val, by omega⟩) p else 0) :=
  C10_forward_is_path_sum demoGraph demoLlhs 1 1

/-- The utterance has non-zero probability exactly when some state sequence has a finite score. -/
lemma evidence_pos_iff (g : CGraph K) (llhs : Fin (n + 1) → Frame K) :
    0 < evidence g llhs ↔ ∃ p, pathScore g llhs p ≠ ⊥ := by
  have hw : ∀ p, lexp (pathScore g llhs p) = pathWeight g llhs p := by
    intro p
    unfold pathScore pathWeight
    simp only [lexp_add, lexp_sum]
  unfold evidence
  rw [Finset.sum_pos_iff_of_nonneg (fun p _ => pathWeight_nonneg g llhs p)]
  simp only [Finset.mem_univ, true_and, ← hw, lexp_pos_iff]

lemma demo_evidence : 0 < evidence demoGraph demoLlhs := by
  rw [evidence_pos_iff]
  refine ⟨![0, 0, 1], ?_⟩
  simp only [pathScore, demoGraph, demoLlhs, Fin.sum_univ_succ]
  simp

/-- **C11 (marginals).** With non-zero total probability, the returned state posterior is the
probability, under the distribution over state sequences, of being in `s` at frame `t`. -/
theorem C11_state_posterior_is_marginal (g : CGraph K) (llhs : Fin (n + 1) → Frame K)
    (hev : 0 < evidence g llhs) (t : Fin (n + 1)) (s : Fin K) :
    statePosts g llhs t s
      = some ((∑ p : Fin (n + 1) → Fin K, if p t = s then pathWeight g llhs p else 0)
          / evidence g llhs) := by
  have hne : lognorm g llhs t ≠ ⊥ := by
    rw [← lexp_pos_iff, lexp_lognorm]; exact hev
  unfold statePosts
  rw [expSub_of_ne_bot hne, lexp_lognorm, alpha_beta]

/-- **C11 (normalisation).** The state posteriors of every frame are numbers in `[0, 1]` that sum
to one. -/
theorem C11_state_posteriors_sum_to_one (g : CGraph K) (llhs : Fin (n + 1) → Frame K)
    (hev : 0 < evidence g llhs) (t : Fin (n + 1)) :
    ∃ q : Fin K → ℝ, (∀ s, statePosts g llhs t s = some (q s)) ∧ (∀ s, 0 ≤ q s ∧ q s ≤ 1)
      ∧ ∑ s, q s = 1 := by
  have hnn : ∀ s : Fin K, 0 ≤ (∑ p : Fin (n + 1) → Fin K, if p t = s then pathWeight g llhs p else 0)
          / evidence g llhs := fun s =>
    div_nonneg (Finset.sum_nonneg fun p _ => by split_ifs; exacts [pathWeight_nonneg _ _ _, le_rfl])
      hev.le
  have hsum : ∑ s : Fin K, (∑ p : Fin (n + 1) → Fin K, if p t = s then pathWeight g llhs p else 0)
          / evidence g llhs = 1 := by
    rw [← Finset.sum_div, Finset.sum_comm]
    simp only [Finset.sum_ite_eq, Finset.mem_univ, if_true]
    exact div_self hev.ne'
  refine ⟨_, fun s => C11_state_posterior_is_marginal g llhs hev t s, fun s => ⟨hnn s, ?_⟩, hsum⟩
  rw [← hsum]
  exact Finset.single_le_sum (f := fun s => (∑ p : Fin (n + 1) → Fin K,
    if p t = s then pathWeight g llhs p else 0) / evidence g llhs) (fun s _ => hnn s) (mem_univ s)

/-- **C11 (evidence).** The per-frame normaliser is the log of the total path weight at every
frame, hence the same at all frames, and the log-evidence returned to the caller (the mean over
frames) is that common value. -/
theorem C11_evidence_constant (g : CGraph K) (llhs : Fin (n + 1) → Frame K) :
    (∀ t, lognorm g llhs t = llog (evidence g llhs))
      ∧ meanLognorm g llhs = llog (evidence g llhs) := by
  have h : ∀ t, lognorm g llhs t = llog (evidence g llhs) := fun t => by
    rw [← lexp_lognorm g llhs t, llog_lexp]
  refine ⟨h, ?_⟩
  unfold meanLognorm
  simp only [h, Finset.sum_const, Finset.card_univ, Fintype.card_fin]
  cases llog (evidence g llhs) using WithBot.recBotCoe with
  | bot =>
    rw [succ_nsmul, WithBot.add_bot]; rfl
  | coe x =>
    rw [← WithBot.coe_nsmul]
    show ((((n + 1) • x / ((n + 1 : ℕ) : ℝ) : ℝ)) : LogR) = (x : LogR)
    congr 1
    rw [nsmul_eq_mul]
    field_simp

/-- **C11 (degenerate case).** When no state sequence is possible the posteriors are NaN: the
hypothesis of the previous theorems cannot be dropped. -/
theorem C11_zero_evidence_is_nan (g : CGraph K) (llhs : Fin (n + 1) → Frame K)
    (hev : evidence g llhs = 0) (t : Fin (n + 1)) (s : Fin K) :
    statePosts g llhs t s = none := by
  have : lognorm g llhs t = ⊥ := by
    rw [← lexp_eq_zero_iff, lexp_lognorm]; exact hev
  unfold statePosts
  rw [this, expSub_bot]

example : ∃ q : Fin 2 → ℝ, (∀ s, statePosts demoGraph demoLlhs 1 s = some (q s))
    ∧ (∀ s, 0 ≤ q s ∧ q s ≤ 1) ∧ ∑ s, q s = 1 :=
  C11_state_posteriors_sum_to_one demoGraph demoLlhs demo_evidence 1

/-- **C12 (meaning).** The transition posterior from frame `i` to `i+1` is the probability, under
the distribution over state sequences, of being in `s` at frame `i` and in `d` at frame `i+1`. -/
theorem C12_transition_posterior_is_marginal (g : CGraph K) (llhs : Fin (n + 1) → Frame K)
    (hev : 0 < evidence g llhs) (i : Fin n) (s d : Fin K) :
    transPosts g llhs i s d
      = (∑ p : Fin (n + 1) → Fin K, if p i.castSucc = s ∧ p i.succ = d
          then pathWeight g llhs p else 0) / evidence g llhs := by
  have hne : xiNorm g llhs i ≠ ⊥ := by
    rw [← lexp_pos_iff, lexp_xiNorm]; exact hev
  unfold transPosts
  rw [expSub_of_ne_bot hne, lexp_xiNorm, lexp_logXi]
  rfl

/-- **C12 (consistency).** Transition posteriors sum to one; summed over destinations they give the
state posterior of the frame, summed over origins that of the next frame. -/
theorem C12_transition_posteriors_marginalise (g : CGraph K) (llhs : Fin (n + 1) → Frame K)
    (hev : 0 < evidence g llhs) (i : Fin n) :
    (∑ s, ∑ d, transPosts g llhs i s d = 1)
      ∧ (∀ s, statePosts g llhs i.castSucc s = some (∑ d, transPosts g llhs i s d))
      ∧ (∀ d, statePosts g llhs i.succ d = some (∑ s, transPosts g llhs i s d)) := by
  have h1 : ∀ s, statePosts g llhs i.castSucc s = some (∑ d, transPosts g llhs i s d) := by
    intro s
    rw [C11_state_posterior_is_marginal g llhs hev]
    simp only [C12_transition_posterior_is_marginal g llhs hev]
    rw [← Finset.sum_div, Finset.sum_comm]
    congr 2
    refine Finset.sum_congr rfl fun p _ => ?_
    by_cases h : p i.castSucc = s <;> simp [h]
  refine ⟨?_, h1, ?_⟩
  · obtain ⟨q, hq, _, hs⟩ := C11_state_posteriors_sum_to_one g llhs hev i.castSucc
    rw [← hs]
    refine Finset.sum_congr rfl fun s _ => ?_
    exact Option.some.inj ((h1 s).symm.trans (hq s))
  · intro d
    rw [C11_state_posterior_is_marginal g llhs hev]
    simp only [C12_transition_posterior_is_marginal g llhs hev]
    rw [← Finset.sum_div, Finset.sum_comm]
    congr 2
    refine Finset.sum_congr rfl fun p _ => ?_
    by_cases h : p i.succ = d <;> simp [h]

/-- **C12 (degenerate case).** When no state sequence is possible all transition posteriors are
zero (the NaN values are replaced). -/
theorem C12_zero_evidence_is_zero (g : CGraph K) (llhs : Fin (n + 1) → Frame K)
    (hev : evidence g llhs = 0) (i : Fin n) (s d : Fin K) : transPosts g llhs i s d = 0 := by
  have : xiNorm g llhs i = ⊥ := by
    rw [← lexp_eq_zero_iff, lexp_xiNorm]; exact hev
  unfold transPosts
  rw [this, expSub_bot]
  rfl

example : transPosts (⟨fun _ => ⊥, fun _ => 0, fun _ _ => 0⟩ : CGraph 2)
    (fun _ _ => 0 : Fin 2 → Frame 2) 0 0 1 = 0 :=
  C12_zero_evidence_is_zero _ _ (by simp [evidence, pathWeight]) _ _ _

example : ∑ s, ∑ d, transPosts demoGraph demoLlhs 0 s d = 1 :=
  (C12_transition_posteriors_marginalise demoGraph demoLlhs demo_evidence 0).1

lemma pathScore_eq_partScore (g : CGraph K) (llhs : Fin (n + 1) → Frame K)
    (p : Fin (n + 1) → Fin K) :
    pathScore g llhs p = partScore g llhs p (Fin.last n) + g.final (p (Fin.last n)) := by
  rw [partScore_eq]; rfl

/-- **C13.** Viterbi decoding is optimal: however `argmax` breaks ties, no state sequence of the
same length scores more than the returned one. -/
theorem C13_best_path_optimal {am : Frame K → Fin K} (ham : IsArgmax am) (g : CGraph K)
    (llhs : Fin (n + 1) → Frame K) (p : Fin (n + 1) → Fin K) :
    pathScore g llhs p ≤ pathScore g llhs (bestPath am g llhs) := by
  rw [pathScore_eq_partScore, pathScore_eq_partScore, partScore_bestPath, bestPath_last]
  have h1 : partScore g llhs p (Fin.last n) + g.final (p (Fin.last n))
      ≤ omega am g llhs (Fin.last n) (p (Fin.last n)) + g.final (p (Fin.last n)) :=
    add_le_add (partScore_le_omega ham g llhs p _) le_rfl
  exact h1.trans (ham (fun s => omega am g llhs (Fin.last n) s + g.final s) (p (Fin.last n)))

/-- **C13 (shape).** Decoding an utterance of `N ≥ 1` frames returns `N` states; an empty utterance
is an `IndexError`. -/
theorem C13_best_path_length (am : Frame K → Fin K) (g : CGraph K) (N : ℕ) (llhs : Fin N → Frame K) :
    match bestPathPy am g N llhs with
    | .ok path => path.length = N ∧ 0 < N
    | .error e => e = .indexError ∧ N = 0 := by
  cases N with
  | zero => exact ⟨rfl, rfl⟩
  | succ n => simp [bestPathPy]

/-- An argmax for two entries (first maximum). -/
noncomputable def demoArgmax (v : Frame 2) : Fin 2 := if v 1 ≤ v 0 then 0 else 1

lemma demoArgmax_spec : IsArgmax demoArgmax := by
  intro v i
  unfold demoArgmax
  split_ifs with h
  · fin_cases i
    · exact le_rfl
    · exact h
  · fin_cases i
    · exact (not_le.mp h).le
    · exact le_rfl

example (p : Fin 3 → Fin 2) :
    pathScore demoGraph demoLlhs p
      ≤ pathScore demoGraph demoLlhs (bestPath demoArgmax demoGraph demoLlhs) :=
  C13_best_path_optimal demoArgmax_spec demoGraph demoLlhs p

/-- **C14.** If some state sequence is possible, the decoded sequence is possible: it starts in a
state with non-zero initial probability, only uses transitions and emissions of non-zero
probability and ends in a state with non-zero final probability. -/
theorem C14_best_path_feasible {am : Frame K → Fin K} (ham : IsArgmax am) (g : CGraph K)
    (llhs : Fin (n + 1) → Frame K) (hfeas : 0 < evidence g llhs) :
    g.init (bestPath am g llhs 0) ≠ ⊥
      ∧ (∀ i : Fin n, g.trans (bestPath am g llhs i.castSucc) (bestPath am g llhs i.succ) ≠ ⊥)
      ∧ (∀ t, llhs t (bestPath am g llhs t) ≠ ⊥)
      ∧ g.final (bestPath am g llhs (Fin.last n)) ≠ ⊥ := by
  obtain ⟨p, hp⟩ := (evidence_pos_iff g llhs).mp hfeas
  have h : pathScore g llhs (bestPath am g llhs) ≠ ⊥ := by
    intro hb
    have := C13_best_path_optimal ham g llhs p
    rw [hb, le_bot_iff] at this
    exact hp this
  have hsum : ∀ {ι : Type} (s : Finset ι) (f : ι → LogR), ∑ i ∈ s, f i ≠ ⊥ → ∀ i ∈ s, f i ≠ ⊥ := by
    intro ι s f hs i hi hbot
    apply hs
    rw [← lexp_eq_zero_iff, lexp_sum, Finset.prod_eq_zero_iff]
    exact ⟨i, hi, by rw [hbot]; rfl⟩
  unfold pathScore at h
  rw [Ne, WithBot.add_eq_bot, WithBot.add_eq_bot, WithBot.add_eq_bot] at h
  push Not at h
  exact ⟨h.1.1.1, fun i => hsum _ _ h.1.1.2 i (mem_univ i), fun t => hsum _ _ h.1.2 t (mem_univ t),
    h.2⟩

example : demoGraph.init (bestPath demoArgmax demoGraph demoLlhs 0) ≠ ⊥ :=
  (C14_best_path_feasible demoArgmax_spec demoGraph demoLlhs demo_evidence).1

end Verif.Props
