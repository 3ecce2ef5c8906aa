import Verif.Spec.Stable
import Verif.Props.Offset
import Verif.Props.Mixture

/-!
# C179 — errors of the scores and of the weights do not grow
-/

namespace Verif.Props

open Verif Verif.Spec Verif.Dists Verif.Mixture Finset

variable {K n : ℕ}

lemma within_symm {c : ℝ} {a b : LogR} (h : Within c a b) : Within c b a := ⟨h.2, h.1⟩

lemma bound_symm {e : Errors n} {g g' : CGraph K} {llhs llhs' : Fin (n + 1) → Frame K} (h : e.Bound g g' llhs llhs') :
    e.Bound g' g llhs' llhs :=
  ⟨fun s => within_symm (h.init s), fun s d => within_symm (h.trans s d), fun s => within_symm (h.final s), fun t s => within_symm (h.score t s)⟩

lemma lexp_within {c : ℝ} {a b : LogR} (h : Within c a b) : lexp a ≤ Real.exp c * lexp b := by
  have := lexp_le_lexp.2 h.1
  rwa [lexp_add, lexp_coe, mul_comm] at this

lemma pathWeight_within {e : Errors n} {g g' : CGraph K} {llhs llhs' : Fin (n + 1) → Frame K} (h : e.Bound g g' llhs llhs')
    (p : Fin (n + 1) → Fin K) : pathWeight g llhs p ≤ Real.exp e.total * pathWeight g' llhs' p := by
  have hi := lexp_within (h.init (p 0))
  have hf := lexp_within (h.final (p (Fin.last n)))
  have ht : ∏ i : Fin n, lexp (g.trans (p i.castSucc) (p i.succ)) ≤
      Real.exp (n * e.trans) * ∏ i : Fin n, lexp (g'.trans (p i.castSucc) (p i.succ)) := by
    refine (Finset.prod_le_prod (fun i _ => lexp_nonneg _) fun i _ => lexp_within (h.trans _ _)).trans (le_of_eq ?_)
    rw [Finset.prod_mul_distrib, Finset.prod_const, Finset.card_univ, Fintype.card_fin, ← Real.exp_nat_mul]
  have hs : ∏ t, lexp (llhs t (p t)) ≤ Real.exp (∑ t, e.score t) * ∏ t, lexp (llhs' t (p t)) := by
    refine (Finset.prod_le_prod (fun i _ => lexp_nonneg _) fun t _ => lexp_within (h.score t _)).trans (le_of_eq ?_)
    rw [Finset.prod_mul_distrib, Real.exp_sum]
  have p1 : ∀ (g : CGraph K), 0 ≤ ∏ i : Fin n, lexp (g.trans (p i.castSucc) (p i.succ)) := fun g =>
    Finset.prod_nonneg fun i _ => lexp_nonneg _
  have p2 : ∀ (l : Fin (n + 1) → Frame K), 0 ≤ ∏ t, lexp (l t (p t)) := fun l => Finset.prod_nonneg fun i _ => lexp_nonneg _
  have h1 := mul_le_mul hi ht (p1 g) (mul_nonneg (Real.exp_pos _).le (lexp_nonneg _))
  have h2 := mul_le_mul h1 hs (p2 llhs) (mul_nonneg (mul_nonneg (Real.exp_pos _).le (lexp_nonneg _)) (mul_nonneg (Real.exp_pos _).le (p1 g')))
  have h3 := mul_le_mul h2 hf (lexp_nonneg _) (mul_nonneg (mul_nonneg (mul_nonneg (Real.exp_pos _).le (lexp_nonneg _))
    (mul_nonneg (Real.exp_pos _).le (p1 g'))) (mul_nonneg (Real.exp_pos _).le (p2 llhs')))
  unfold pathWeight
  refine h3.trans (le_of_eq ?_)
  unfold Errors.total
  rw [Real.exp_add, Real.exp_add, Real.exp_add]
  ring

lemma pathScore_within {e : Errors n} {g g' : CGraph K} {llhs llhs' : Fin (n + 1) → Frame K} (h : e.Bound g g' llhs llhs')
    (p : Fin (n + 1) → Fin K) : Within e.total (pathScore g llhs p) (pathScore g' llhs' p) := by
  constructor
  · rw [← lexp_le_lexp, lexp_add, lexp_coe, lexp_pathScore, lexp_pathScore, mul_comm]
    exact pathWeight_within h p
  · rw [← lexp_le_lexp, lexp_add, lexp_coe, lexp_pathScore, lexp_pathScore, mul_comm]
    exact pathWeight_within (bound_symm h) p

lemma evidence_within {e : Errors n} {g g' : CGraph K} {llhs llhs' : Fin (n + 1) → Frame K} (h : e.Bound g g' llhs llhs') :
    evidence g llhs ≤ Real.exp e.total * evidence g' llhs' := by
  unfold evidence
  rw [Finset.mul_sum]
  exact Finset.sum_le_sum fun p _ => pathWeight_within h p

lemma meanLognorm_within {e : Errors n} {g g' : CGraph K} {llhs llhs' : Fin (n + 1) → Frame K} (h : e.Bound g g' llhs llhs') :
    meanLognorm g llhs ≤ meanLognorm g' llhs' + ((e.total : ℝ) : LogR) := by
  rw [(C11_evidence_constant g _).2, (C11_evidence_constant g' _).2, ← lexp_le_lexp, lexp_add, lexp_coe,
    lexp_llog (evidence_nonneg _ _), lexp_llog (evidence_nonneg _ _), mul_comm]
  exact evidence_within h

/-- **C179, log-probability.** The log-probability of an utterance, and the score of its decoded sequence, change by no more than the errors
sum up to along one sequence of states: one error per frame and per transition, whatever the number of states and of sequences. In particular
an utterance is impossible with the errors exactly when it is without. -/
theorem C179_evidence {am am' : Frame K → Fin K} (ham : IsArgmax am) (ham' : IsArgmax am') (e : Errors n) (g g' : CGraph K)
    (llhs llhs' : Fin (n + 1) → Frame K) (h : e.Bound g g' llhs llhs') :
    Within e.total (meanLognorm g llhs) (meanLognorm g' llhs') ∧
    Within e.total (pathScore g llhs (bestPath am g llhs)) (pathScore g' llhs' (bestPath am' g' llhs')) ∧
    (evidence g llhs = 0 ↔ evidence g' llhs' = 0) := by
  refine ⟨⟨meanLognorm_within h, meanLognorm_within (bound_symm h)⟩, ⟨?_, ?_⟩, fun h0 => ?_, fun h0 => ?_⟩
  · exact (pathScore_within h _).1.trans (add_le_add (C13_best_path_optimal ham' g' llhs' _) le_rfl)
  · exact (pathScore_within h _).2.trans (add_le_add (C13_best_path_optimal ham g llhs _) le_rfl)
  · refine le_antisymm ((evidence_within (bound_symm h)).trans ?_) (evidence_nonneg _ _)
    rw [h0, mul_zero]
  · refine le_antisymm ((evidence_within h).trans ?_) (evidence_nonneg _ _)
    rw [h0, mul_zero]

lemma ratio_within {a b a' b' E : ℝ} (ha : a' ≤ Real.exp E * a) (hb : b ≤ Real.exp E * b') (hb0 : 0 < b) (hb0' : 0 < b') (h0 : 0 ≤ a) :
    a' / b' ≤ Real.exp (2 * E) * (a / b) := by
  rw [div_le_iff₀ hb0']
  have h2 : Real.exp (2 * E) = Real.exp E * Real.exp E := by rw [← Real.exp_add]; ring_nf
  calc a' ≤ Real.exp E * a := ha
    _ = Real.exp E * (a / b) * b := by field_simp
    _ ≤ Real.exp E * (a / b) * (Real.exp E * b') := by gcongr
    _ = Real.exp (2 * E) * (a / b) * b' := by rw [h2]; ring

lemma sum_within {e : Errors n} {g g' : CGraph K} {llhs llhs' : Fin (n + 1) → Frame K} (h : e.Bound g g' llhs llhs')
    (A : (Fin (n + 1) → Fin K) → Prop) [DecidablePred A] :
    (∑ p : Fin (n + 1) → Fin K, if A p then pathWeight g llhs p else 0) ≤
      Real.exp e.total * ∑ p : Fin (n + 1) → Fin K, if A p then pathWeight g' llhs' p else 0 := by
  rw [Finset.mul_sum]
  refine Finset.sum_le_sum fun p _ => ?_
  split_ifs
  · exact pathWeight_within h p
  · rw [mul_zero]

lemma abs_of_ratios {r r' x : ℝ} (hx : 1 ≤ x) (h1 : r ≤ 1) (h1' : r' ≤ 1) (ha : r' ≤ x * r) (hb : r ≤ x * r') : |r' - r| ≤ x - 1 := by
  rw [abs_le]
  constructor <;> nlinarith

lemma total_nonneg {e : Errors n} {g g' : CGraph K} {llhs llhs' : Fin (n + 1) → Frame K} (h : e.Bound g g' llhs llhs')
    (hev : 0 < evidence g llhs) : 0 ≤ e.total := by
  have h1 := evidence_within h
  have h2 := evidence_within (bound_symm h)
  have h3 : 1 ≤ Real.exp e.total * Real.exp e.total := by
    by_contra hc
    have : evidence g llhs ≤ Real.exp e.total * (Real.exp e.total * evidence g llhs) :=
      h1.trans (mul_le_mul_of_nonneg_left h2 (Real.exp_pos _).le)
    rw [← mul_assoc] at this
    nlinarith
  rw [← Real.exp_add, Real.one_le_exp_iff] at h3
  linarith

lemma evidence_pos_within {e : Errors n} {g g' : CGraph K} {llhs llhs' : Fin (n + 1) → Frame K} (h : e.Bound g g' llhs llhs')
    (hev : 0 < evidence g llhs) : 0 < evidence g' llhs' := by
  by_contra hc
  have h0 : evidence g' llhs' = 0 := le_antisymm (not_lt.1 hc) (evidence_nonneg _ _)
  have := evidence_within h
  rw [h0, mul_zero] at this
  linarith

lemma marginal_within {e : Errors n} {g g' : CGraph K} {llhs llhs' : Fin (n + 1) → Frame K} (h : e.Bound g g' llhs llhs')
    (hev : 0 < evidence g llhs) (A : (Fin (n + 1) → Fin K) → Prop) [DecidablePred A] :
    (∑ p : Fin (n + 1) → Fin K, if A p then pathWeight g' llhs' p else 0) / evidence g' llhs' ≤
      Real.exp (2 * e.total) * ((∑ p : Fin (n + 1) → Fin K, if A p then pathWeight g llhs p else 0) / evidence g llhs) :=
  ratio_within (sum_within (bound_symm h) A) (evidence_within h) hev (evidence_pos_within h hev)
    (Finset.sum_nonneg fun p _ => by split_ifs <;> [exact pathWeight_nonneg _ _ _; exact le_rfl])

lemma marginal_le_one (g : CGraph K) (llhs : Fin (n + 1) → Frame K) (hev : 0 < evidence g llhs) (A : (Fin (n + 1) → Fin K) → Prop)
    [DecidablePred A] : (∑ p : Fin (n + 1) → Fin K, if A p then pathWeight g llhs p else 0) / evidence g llhs ≤ 1 := by
  rw [div_le_one hev]
  refine Finset.sum_le_sum fun p _ => ?_
  split_ifs
  · exact le_rfl
  · exact pathWeight_nonneg _ _ _

/-- **C179, posteriors.** A state posterior changes by a factor of at most the exponential of twice the errors, and by at most this exponential
minus one. -/
theorem C179_state_posteriors (e : Errors n) (g g' : CGraph K) (llhs llhs' : Fin (n + 1) → Frame K) (h : e.Bound g g' llhs llhs')
    (hev : 0 < evidence g llhs) (t : Fin (n + 1)) (s : Fin K) :
    ∃ r r', statePosts g llhs t s = some r ∧ statePosts g' llhs' t s = some r' ∧
      r' ≤ Real.exp (2 * e.total) * r ∧ r ≤ Real.exp (2 * e.total) * r' ∧ |r' - r| ≤ Real.exp (2 * e.total) - 1 := by
  have hev' := evidence_pos_within h hev
  have ha := marginal_within h hev fun p => p t = s
  have hb := marginal_within (bound_symm h) hev' fun p => p t = s
  refine ⟨_, _, C11_state_posterior_is_marginal g llhs hev t s, C11_state_posterior_is_marginal g' llhs' hev' t s, ha, hb, ?_⟩
  exact abs_of_ratios (Real.one_le_exp (by linarith [total_nonneg h hev])) (marginal_le_one g llhs hev _) (marginal_le_one g' llhs' hev' _) ha hb

/-- **C179, transition posteriors.** The same for the posteriors of the transitions. -/
theorem C179_transition_posteriors (e : Errors n) (g g' : CGraph K) (llhs llhs' : Fin (n + 1) → Frame K) (h : e.Bound g g' llhs llhs')
    (i : Fin n) (s d : Fin K) :
    transPosts g' llhs' i s d ≤ Real.exp (2 * e.total) * transPosts g llhs i s d ∧
    transPosts g llhs i s d ≤ Real.exp (2 * e.total) * transPosts g' llhs' i s d := by
  rcases (evidence_nonneg g llhs).eq_or_lt with h0 | hev
  · have h0' : evidence g' llhs' = 0 := by
      refine le_antisymm ((evidence_within (bound_symm h)).trans ?_) (evidence_nonneg _ _)
      rw [← h0, mul_zero]
    rw [C12_zero_evidence_is_zero g llhs h0.symm, C12_zero_evidence_is_zero g' llhs' h0', mul_zero]
    exact ⟨le_rfl, le_rfl⟩
  · have hev' := evidence_pos_within h hev
    rw [C12_transition_posterior_is_marginal g llhs hev, C12_transition_posterior_is_marginal g' llhs' hev']
    exact ⟨marginal_within h hev _, marginal_within (bound_symm h) hev' _⟩

/-- **C179, decoding.** The sequence decoded with the errors is, without them, within twice the errors of the best one; when every other
sequence is worse by more than that, it is the same sequence. -/
theorem C179_decoding {am am' : Frame K → Fin K} (ham' : IsArgmax am') (e : Errors n) (g g' : CGraph K)
    (llhs llhs' : Fin (n + 1) → Frame K) (h : e.Bound g g' llhs llhs') :
    (∀ p, pathScore g llhs p ≤ pathScore g llhs (bestPath am' g' llhs') + ((2 * e.total : ℝ) : LogR)) ∧
    ((∀ p, p ≠ bestPath am g llhs → pathScore g llhs p + ((2 * e.total : ℝ) : LogR) < pathScore g llhs (bestPath am g llhs)) →
      bestPath am' g' llhs' = bestPath am g llhs) := by
  have key : ∀ p, pathScore g llhs p ≤ pathScore g llhs (bestPath am' g' llhs') + ((2 * e.total : ℝ) : LogR) := by
    intro p
    rw [two_mul, WithBot.coe_add, ← add_assoc]
    refine (pathScore_within h p).1.trans (add_le_add ?_ le_rfl)
    exact (C13_best_path_optimal ham' g' llhs' p).trans (pathScore_within h _).2
  refine ⟨key, fun hgap => ?_⟩
  by_contra hne
  exact absurd (key (bestPath am g llhs)) (not_le.2 (hgap _ hne))

/-- **C179, the bounds are reached.** A number `c t ≥ 0` added to all the scores of frame `t` moves the log-probability by the whole of the errors. -/
theorem C179_tight (g : CGraph K) (llhs : Fin (n + 1) → Frame K) (c : Fin (n + 1) → ℝ) (hc : ∀ t, 0 ≤ c t) :
    (Errors.mk 0 0 0 c).Bound g g llhs (offset c llhs) ∧
    meanLognorm g (offset c llhs) = meanLognorm g llhs + (((Errors.mk 0 0 0 c).total : ℝ) : LogR) := by
  have hz : ∀ a : LogR, Within 0 a a := fun a => by
    constructor <;> simp
  refine ⟨⟨fun s => hz _, fun s d => hz _, fun s => hz _, fun t s => ⟨?_, le_rfl⟩⟩, ?_⟩
  · unfold offset
    cases llhs t s with
    | none => exact bot_le
    | some x =>
      show ((x : ℝ) : LogR) ≤ ((x : ℝ) : LogR) + ((c t : ℝ) : LogR) + ((c t : ℝ) : LogR)
      rw [← WithBot.coe_add, ← WithBot.coe_add, WithBot.coe_le_coe]
      linarith [hc t]
  · rw [(C170_offset g llhs c).2.2.1]
    congr 2
    simp [Errors.total]

/-- The graph of two states without preference. -/
noncomputable def evenGraph : CGraph 2 := ⟨fun _ => 0, fun _ => 0, fun _ _ => 0⟩

/-- The position of a maximum, the last one of two. -/
noncomputable def lastMax (v : Frame 2) : Fin 2 := if v 0 ≤ v 1 then 1 else 0

lemma lastMax_argmax : IsArgmax lastMax := by
  intro v i
  unfold lastMax
  split_ifs with h
  · fin_cases i
    · exact h
    · exact le_rfl
  · fin_cases i
    · exact le_rfl
    · exact (not_le.1 h).le

lemma lastMax_path (v : Fin 1 → Frame 2) (t : Fin 1) : bestPath lastMax evenGraph v t = lastMax fun s => v 0 s + 0 + 0 := by
  obtain rfl : t = 0 := Subsingleton.elim _ _
  exact bestPath_last evenGraph v

/-- **C179, the gap is needed.** A sequence which is better than every other one by exactly twice the errors may be lost. -/
theorem C179_gap_needed : ∃ (e : Errors 0) (llhs llhs' : Fin 1 → Frame 2), e.Bound evenGraph evenGraph llhs llhs' ∧
    (∀ p, p ≠ bestPath lastMax evenGraph llhs →
      pathScore evenGraph llhs p + ((2 * e.total : ℝ) : LogR) ≤ pathScore evenGraph llhs (bestPath lastMax evenGraph llhs)) ∧
    bestPath lastMax evenGraph llhs' ≠ bestPath lastMax evenGraph llhs := by
  have hb : ∀ t, bestPath lastMax evenGraph (fun (_ : Fin 1) s => if s = 0 then ((2 : ℝ) : LogR) else ((0 : ℝ) : LogR)) t = 0 := by
    intro t
    rw [lastMax_path]
    simp [lastMax]
  have hb' : ∀ t, bestPath lastMax evenGraph (fun (_ : Fin 1) _ => ((1 : ℝ) : LogR)) t = 1 := by
    intro t
    rw [lastMax_path]
    simp [lastMax]
  have hz : ∀ a : LogR, Within 0 a a := fun a => by constructor <;> simp
  refine ⟨⟨0, 0, 0, fun _ => 1⟩, fun _ s => if s = 0 then ((2 : ℝ) : LogR) else ((0 : ℝ) : LogR), fun _ _ => ((1 : ℝ) : LogR),
    ⟨fun s => hz _, fun s d => hz _, fun s => hz _, fun t s => ?_⟩, fun p hp => ?_, fun h => ?_⟩
  · unfold Within
    dsimp only
    split_ifs
    · constructor
      · rw [← WithBot.coe_add, WithBot.coe_le_coe]; norm_num
      · rw [← WithBot.coe_add, WithBot.coe_le_coe]; norm_num
    · constructor
      · rw [← WithBot.coe_add, WithBot.coe_le_coe]; norm_num
      · rw [← WithBot.coe_add, WithBot.coe_le_coe]; norm_num
  · have hp0 : p 0 ≠ 0 := by
      intro h0
      refine hp (funext fun t => ?_)
      rw [hb, ← h0]
      exact congrArg p (Fin.ext (by omega))
    have e : ∀ q : Fin 1 → Fin 2, pathScore evenGraph (fun (_ : Fin 1) s => if s = 0 then ((2 : ℝ) : LogR) else ((0 : ℝ) : LogR)) q
        = if q 0 = 0 then ((2 : ℝ) : LogR) else ((0 : ℝ) : LogR) := by
      intro q
      simp [pathScore, evenGraph]
    rw [e, e, if_neg hp0, if_pos (hb 0), ← WithBot.coe_add, WithBot.coe_le_coe]
    simp [Errors.total]
  · have := congrFun h 0
    rw [hb, hb'] at this
    exact absurd this (by decide)

lemma mix_sum_within {K : ℕ} {lw lw' v v' : Fin K → ℝ} {a c : ℝ} (hl : ∀ k, |lw' k - lw k| ≤ a) (hv : ∀ k, |v' k - v k| ≤ c) :
    ∑ k, Real.exp (lw' k) * Real.exp (v' k) ≤ Real.exp (a + c) * ∑ k, Real.exp (lw k) * Real.exp (v k) := by
  rw [Finset.mul_sum]
  refine Finset.sum_le_sum fun k _ => ?_
  rw [← Real.exp_add, ← Real.exp_add, ← Real.exp_add, Real.exp_le_exp]
  have h1 := (abs_le.1 (hl k)).2
  have h2 := (abs_le.1 (hv k)).2
  linarith

/-- **C179, mixtures.** The value of a frame changes by no more than the error of its log-likelihoods and that of the expected log-weights; the
responsibilities by a factor of at most the exponential of twice these. -/
theorem C179_mixture {K : ℕ} (hK : 0 < K) (lw lw' v v' : Fin K → ℝ) (a c : ℝ) (hl : ∀ k, |lw' k - lw k| ≤ a) (hv : ∀ k, |v' k - v k| ≤ c) :
    |(mixLocal lw' v').value - (mixLocal lw v).value| ≤ a + c ∧
    ∀ k, (mixLocal lw' v').resps k ≤ Real.exp (2 * (a + c)) * (mixLocal lw v).resps k := by
  have hl' : ∀ k, |lw k - lw' k| ≤ a := fun k => by rw [abs_sub_comm]; exact hl k
  have hv' : ∀ k, |v k - v' k| ≤ c := fun k => by rw [abs_sub_comm]; exact hv k
  have pos : ∀ l w : Fin K → ℝ, 0 < ∑ k, Real.exp (l k) * Real.exp (w k) := fun l w =>
    Finset.sum_pos (fun k _ => by positivity) ⟨⟨0, hK⟩, Finset.mem_univ _⟩
  have half : ∀ l l' w w' : Fin K → ℝ, (∀ k, |l' k - l k| ≤ a) → (∀ k, |w' k - w k| ≤ c) →
      (mixLocal l' w').value - (mixLocal l w).value ≤ a + c := by
    intro l l' w w' h1 h2
    have := Real.log_le_log (pos l' w') (mix_sum_within h1 h2)
    rw [Real.log_mul (Real.exp_pos _).ne' (pos l w).ne', Real.log_exp] at this
    rw [C44_value hK, C44_value hK]
    linarith
  have hr : ∀ (l w : Fin K → ℝ) (k : Fin K), (mixLocal l w).resps k = Real.exp (l k) * Real.exp (w k) / ∑ j, Real.exp (l j) * Real.exp (w j) := by
    intro l w k
    have e : ∑ j, Real.exp (l j) * Real.exp (w j) = ∑ j, Real.exp (w j + l j) := Finset.sum_congr rfl fun j _ => by rw [Real.exp_add, mul_comm]
    have hp := pos l w
    rw [e] at hp ⊢
    rw [← Real.exp_add]
    show Real.exp (w k + l k - Real.log _) = _
    rw [Real.exp_sub, Real.exp_log hp, add_comm]
  refine ⟨abs_le.2 ⟨?_, half _ _ _ _ hl hv⟩, fun k => ?_⟩
  · linarith [half _ _ _ _ hl' hv']
  · rw [hr, hr]
    refine ratio_within ?_ (mix_sum_within hl' hv') (pos _ _) (pos _ _) (by positivity)
    rw [← Real.exp_add, ← Real.exp_add, ← Real.exp_add, Real.exp_le_exp]
    have h1 := (abs_le.1 (hl k)).2
    have h2 := (abs_le.1 (hv k)).2
    linarith

/-! ## Examples -/

/-- Two frames, the second with an error of one half. -/
lemma even_bound : (Errors.mk 0 0 0 ![0, 1 / 2] : Errors 1).Bound evenGraph evenGraph (fun _ _ => ((0 : ℝ) : LogR))
    (offset ![0, 1 / 2] fun _ _ => ((0 : ℝ) : LogR)) :=
  (C179_tight evenGraph (fun _ _ => ((0 : ℝ) : LogR)) ![0, 1 / 2] (fun t => by fin_cases t <;> simp)).1

lemma even_total : (Errors.mk 0 0 0 ![0, 1 / 2] : Errors 1).total = 1 / 2 := by simp [Errors.total]

lemma even_pos : 0 < evidence evenGraph (fun (_ : Fin 2) (_ : Fin 2) => ((0 : ℝ) : LogR)) := by
  refine Finset.sum_pos (fun p _ => ?_) Finset.univ_nonempty
  rw [← lexp_pathScore, lexp_pos_iff]
  simp [pathScore, evenGraph]

example : Within (1 / 2) (meanLognorm evenGraph fun (_ : Fin 2) _ => ((0 : ℝ) : LogR))
    (meanLognorm evenGraph (offset ![0, 1 / 2] fun _ _ => ((0 : ℝ) : LogR))) := by
  have := (C179_evidence lastMax_argmax lastMax_argmax _ _ _ _ _ even_bound).1
  rwa [even_total] at this

example : ∃ r r', statePosts evenGraph (fun (_ : Fin 2) _ => ((0 : ℝ) : LogR)) 1 0 = some r ∧
    statePosts evenGraph (offset ![0, 1 / 2] fun _ _ => ((0 : ℝ) : LogR)) 1 0 = some r' ∧ r' ≤ Real.exp 1 * r ∧ |r' - r| ≤ Real.exp 1 - 1 := by
  obtain ⟨r, r', h1, h2, h3, _, h4⟩ := C179_state_posteriors _ _ _ _ _ even_bound even_pos 1 0
  rw [even_total, mul_one_div_cancel (by norm_num)] at h3 h4
  exact ⟨r, r', h1, h2, h3, h4⟩

example : transPosts evenGraph (offset ![0, 1 / 2] fun _ _ => ((0 : ℝ) : LogR)) 0 0 1 ≤
    Real.exp (2 * (1 / 2)) * transPosts evenGraph (fun (_ : Fin 2) _ => ((0 : ℝ) : LogR)) 0 0 1 := by
  have := (C179_transition_posteriors _ _ _ _ _ even_bound 0 0 1).1
  rwa [even_total] at this

example (p : Fin 2 → Fin 2) : pathScore evenGraph (fun (_ : Fin 2) _ => ((0 : ℝ) : LogR)) p ≤
    pathScore evenGraph (fun (_ : Fin 2) _ => ((0 : ℝ) : LogR)) (bestPath lastMax evenGraph (offset ![0, 1 / 2] fun _ _ => ((0 : ℝ) : LogR)))
      + ((2 * (1 / 2) : ℝ) : LogR) := by
  have := (C179_decoding (am := lastMax) lastMax_argmax _ _ _ _ _ even_bound).1 p
  rwa [even_total] at this

example : |(mixLocal (fun _ : Fin 2 => 0) ![1, 5]).value - (mixLocal (fun _ => 0) ![1, 4]).value| ≤ 0 + 1 :=
  (C179_mixture (by norm_num) _ _ _ _ 0 1 (fun _ => by simp) (fun k => by fin_cases k <;> norm_num)).1

end Verif.Props
