import Verif.Spec.AcousticScale
import Verif.Lemmas.VBHmm
import Verif.Props.Offset
import Verif.Props.VBTrain
import Verif.Props.PostCmd

/-!
# C173 — what the acoustic scale does
-/

namespace Verif.Props

open Real Filter Topology Verif Verif.Spec Verif.VB

variable {K n : ℕ}

theorem graphWeight_eq (g : CGraph K) (p : Fin (n + 1) → Fin K) : graphWeight g p = pathPrior g p := by
  unfold graphWeight pathPrior
  ring

theorem graphWeight_nonneg (g : CGraph K) (p : Fin (n + 1) → Fin K) : 0 ≤ graphWeight g p := by
  rw [graphWeight_eq]
  exact pathPrior_nonneg g p

theorem scaled_weight (g : CGraph K) (a : ℝ) (v : Fin (n + 1) → Fin K → ℝ) (p : Fin (n + 1) → Fin K) :
    pathWeight g (scaledBy a v) p = graphWeight g p * exp (a * acousticScore v p) := by
  rw [graphWeight_eq]
  have := pathWeight_real g (fun t s => a * v t s) p
  unfold acousticScore
  rw [Finset.mul_sum]
  exact this

theorem scaled_evidence_pos (g : CGraph K) (h : Traversable g n) (a : ℝ) (v : Fin (n + 1) → Fin K → ℝ) :
    0 < evidence g (scaledBy a v) := by
  obtain ⟨p, hp⟩ := h
  refine Finset.sum_pos' (fun q _ => pathWeight_nonneg g _ q) ⟨p, Finset.mem_univ _, ?_⟩
  rw [scaled_weight]
  exact mul_pos hp (exp_pos _)

/-- The state posteriors are the shares of the sequences, each counting for its weight in the graph times `exp(a · score)`. -/
theorem scaled_posts (g : CGraph K) (h : Traversable g n) (a : ℝ) (v : Fin (n + 1) → Fin K → ℝ) (t : Fin (n + 1)) (s : Fin K) :
    statePosts g (scaledBy a v) t s = some (shareOf (fun p => graphWeight g p * exp (a * acousticScore v p)) t s) := by
  rw [C11_state_posterior_is_marginal g _ (scaled_evidence_pos g h a v)]
  unfold shareOf evidence
  simp only [scaled_weight]

/-! ## Scale zero -/

/-- **C173, scale zero.** With an acoustic scale of zero the posteriors are those of the graph alone, whatever the features. -/
theorem C173_zero_scale (g : CGraph K) (h : Traversable g n) (v : Fin (n + 1) → Fin K → ℝ) (t : Fin (n + 1)) (s : Fin K) :
    statePosts g (scaledBy 0 v) t s = some (shareOf (graphWeight g) t s) := by
  rw [scaled_posts g h]
  simp

/-- The posteriors are flat. -/
def Flat (g : CGraph K) (llhs : Fin (n + 1) → Frame K) : Prop := ∀ t s, statePosts g llhs t s = some (1 / (K : ℝ))

/-- **C173, scale zero: not flat.** On the left-to-right graph of two states they are 0 and 1, not `1/K`. -/
theorem C173_zero_not_flat (v : Fin (1 + 1) → Fin 2 → ℝ) :
    statePosts demoGraph (scaledBy 0 v) 0 0 = some 1 ∧ statePosts demoGraph (scaledBy 0 v) 0 1 = some 0 ∧
      ¬ Flat demoGraph (scaledBy 0 v) := by
  have hz : ∀ p : Fin (1 + 1) → Fin 2, p ≠ ![0, 1] → graphWeight demoGraph p = 0 := by
    intro p hp
    have : p 0 = 1 ∨ p 1 = 0 := by
      by_contra h
      push Not at h
      refine hp (funext fun i => ?_)
      fin_cases i
      · show p 0 = 0
        omega
      · show p 1 = 1
        omega
    unfold graphWeight
    rcases this with h | h
    · rw [h]
      simp [demoGraph]
    · rw [show p (Fin.last 1) = 0 from h]
      simp [demoGraph]
  have hw : 0 < graphWeight demoGraph (n := 1) ![0, 1] := by
    unfold graphWeight
    simp [demoGraph, exp_pos]
  have hs : ∀ t s, statePosts demoGraph (scaledBy 0 v) t s = some (if (![0, 1] : Fin (1 + 1) → Fin 2) t = s then 1 else 0) := by
    intro t s
    rw [C173_zero_scale demoGraph ⟨_, hw⟩]
    unfold shareOf
    rw [Finset.sum_eq_single ![0, 1] (fun r _ hr => by rw [hz r hr, ite_self]) (fun h => absurd (Finset.mem_univ _) h),
      Finset.sum_eq_single ![0, 1] (fun r _ hr => hz r hr) (fun h => absurd (Finset.mem_univ _) h)]
    split_ifs
    · rw [div_self hw.ne']
    · simp
  refine ⟨by rw [hs]; simp, by rw [hs]; simp, fun h => ?_⟩
  have h0 := h 0 0
  rw [hs] at h0
  norm_num at h0

/-- **C173, scale zero, partial.** They are flat when the graph prefers no state and no transition. -/
theorem C173_zero_flat_partial (g : CGraph K) (hK : 0 < K) (i f c : ℝ) (hi : ∀ s, g.init s = (i : ℝ)) (hf : ∀ s, g.final s = (f : ℝ))
    (hc : ∀ s d, g.trans s d = (c : ℝ)) (v : Fin (n + 1) → Fin K → ℝ) : Flat g (scaledBy 0 v) := by
  have hw : ∀ p : Fin (n + 1) → Fin K, graphWeight g p = exp i * exp c ^ n * exp f := by
    intro p
    unfold graphWeight
    simp [hi, hf, hc]
  have hpos : 0 < exp i * exp c ^ n * exp f := by positivity
  intro t s
  rw [C173_zero_scale g ⟨fun _ => ⟨0, hK⟩, by rw [hw]; exact hpos⟩]
  congr 1
  unfold shareOf
  simp only [hw]
  set w := exp i * exp c ^ n * exp f with hwd
  have hsame : ∀ s', (∑ p : Fin (n + 1) → Fin K, if p t = s' then w else 0) =
      ∑ p : Fin (n + 1) → Fin K, if p t = s then w else 0 := by
    intro s'
    refine Fintype.sum_equiv (Equiv.arrowCongr (Equiv.refl _) (Equiv.swap s s')) _ _ fun p => ?_
    have : (Equiv.arrowCongr (Equiv.refl (Fin (n + 1))) (Equiv.swap s s') p t = s) ↔ p t = s' := by
      show Equiv.swap s s' (p t) = s ↔ _
      rw [Equiv.swap_apply_eq_iff, Equiv.swap_apply_left]
    simp only [this]
  have htot : ∑ p : Fin (n + 1) → Fin K, w = K * ∑ p : Fin (n + 1) → Fin K, if p t = s then w else 0 := by
    have : ∑ s', (∑ p : Fin (n + 1) → Fin K, if p t = s' then w else 0) = ∑ p : Fin (n + 1) → Fin K, w := by
      rw [Finset.sum_comm]
      refine Finset.sum_congr rfl fun p _ => ?_
      simp
    rw [← this]
    simp only [hsame]
    simp
  have hp : 0 < ∑ p : Fin (n + 1) → Fin K, w := by
    have : Nonempty (Fin K) := ⟨⟨0, hK⟩⟩
    exact Finset.sum_pos (fun _ _ => hpos) Finset.univ_nonempty
  have hK' : (K : ℝ) ≠ 0 := by positivity
  rw [htot] at hp ⊢
  have := (pos_of_mul_pos_right hp (by positivity : (0:ℝ) ≤ K)).ne'
  field_simp

/-! ## Large scales -/

theorem tendsto_weight (b x m : ℝ) (hb : 0 ≤ b) (h : 0 < b → x ≤ m) :
    Tendsto (fun a => b * exp (a * x) * exp (-(a * m))) atTop (𝓝 (if x = m then b else 0)) := by
  have e : (fun a => b * exp (a * x) * exp (-(a * m))) = fun a => b * exp (a * (x - m)) := by
    funext a
    rw [mul_assoc, ← exp_add]
    ring_nf
  rw [e]
  split_ifs with hx
  · subst hx
    simp
  · rcases hb.eq_or_lt with rfl | hb
    · simp
    · have hlt : x - m < 0 := by
        have := h hb
        rcases this.lt_or_eq with h | h
        · linarith
        · exact absurd h hx
      have h1 : Tendsto (fun a : ℝ => a * (x - m)) atTop atBot := tendsto_id.atTop_mul_const_of_neg hlt
      have := (tendsto_exp_atBot.comp h1).const_mul b
      simpa using this

/-- **C173, large scales.** As the acoustic scale grows the posteriors converge to those of the sequences with the best acoustic
score among the sequences that the graph allows, weighted by the graph. -/
theorem C173_large_scale (g : CGraph K) (v : Fin (n + 1) → Fin K → ℝ) (m : ℝ) (hm : BestAcoustic g v m) :
    ∃ q : ℝ → Fin (n + 1) → Fin K → ℝ, (∀ a t s, statePosts g (scaledBy a v) t s = some (q a t s)) ∧
      ∀ t s, Tendsto (fun a => q a t s) atTop
        (𝓝 (shareOf (fun p => if acousticScore v p = m then graphWeight g p else 0) t s)) := by
  obtain ⟨⟨p0, hp0, hp0m⟩, hle⟩ := hm
  refine ⟨fun a t s => shareOf (fun p => graphWeight g p * exp (a * acousticScore v p)) t s,
    fun a t s => scaled_posts g ⟨p0, hp0⟩ a v t s, fun t s => ?_⟩
  have e : ∀ a, shareOf (fun p => graphWeight g p * exp (a * acousticScore v p)) t s =
      shareOf (fun p => graphWeight g p * exp (a * acousticScore v p) * exp (-(a * m))) t s := by
    intro a
    unfold shareOf
    have hz := (exp_pos (-(a * m))).ne'
    have : ∀ p : Fin (n + 1) → Fin K, (if p t = s then graphWeight g p * exp (a * acousticScore v p) * exp (-(a * m)) else 0) =
        (if p t = s then graphWeight g p * exp (a * acousticScore v p) else 0) * exp (-(a * m)) := by
      intro p
      split_ifs <;> simp
    simp only [this]
    rw [← Finset.sum_mul, ← Finset.sum_mul, mul_div_mul_right _ _ hz]
  simp only [e]
  unfold shareOf
  have hterm := fun p : Fin (n + 1) → Fin K => tendsto_weight (graphWeight g p) (acousticScore v p) m (graphWeight_nonneg g p) (hle p)
  refine Tendsto.div (tendsto_finsetSum _ fun p _ => ?_) (tendsto_finsetSum _ fun p _ => hterm p) ?_
  · by_cases h : p t = s
    · simp only [h, if_true]
      exact hterm p
    · simp only [h, if_false]
      exact tendsto_const_nhds
  · refine (Finset.sum_pos' (fun q _ => ?_) ⟨p0, Finset.mem_univ _, ?_⟩).ne'
    · split_ifs
      · exact graphWeight_nonneg g q
      · exact le_rfl
    · rw [if_pos hp0m]
      exact hp0

/-- **C173, large scales, partial.** So they become sharp when a single sequence has the best acoustic score. -/
theorem C173_sharp_partial (g : CGraph K) (v : Fin (n + 1) → Fin K → ℝ) (p : Fin (n + 1) → Fin K) (hp : 0 < graphWeight g p)
    (hb : ∀ q, 0 < graphWeight g q → q ≠ p → acousticScore v q < acousticScore v p) :
    ∃ q : ℝ → Fin (n + 1) → Fin K → ℝ, (∀ a t s, statePosts g (scaledBy a v) t s = some (q a t s)) ∧
      ∀ t s, Tendsto (fun a => q a t s) atTop (𝓝 (if p t = s then 1 else 0)) := by
  obtain ⟨q, h1, h2⟩ := C173_large_scale g v (acousticScore v p) ⟨⟨p, hp, rfl⟩, fun r hr => by
    by_cases h : r = p
    · rw [h]
    · exact (hb r hr h).le⟩
  refine ⟨q, h1, fun t s => ?_⟩
  have hz : ∀ r, r ≠ p → (if acousticScore v r = acousticScore v p then graphWeight g r else 0) = 0 := by
    intro r hr
    split_ifs with h
    · rcases (graphWeight_nonneg g r).eq_or_lt with h0 | h0
      · exact h0.symm
      · exact absurd h (hb r h0 hr).ne
    · rfl
  have := h2 t s
  unfold shareOf at this
  beta_reduce at this
  rw [Finset.sum_eq_single p (fun r _ hr => by rw [hz r hr, ite_self]) (fun h => absurd (Finset.mem_univ _) h),
    Finset.sum_eq_single p (fun r _ hr => hz r hr) (fun h => absurd (Finset.mem_univ _) h)] at this
  simp only [if_true] at this
  convert this using 2
  split_ifs
  · rw [div_self hp.ne']
  · simp

/-- **C173, large scales: not sharp.** Two states with the same log-likelihoods keep posteriors of 1/2 at every scale. -/
theorem C173_not_sharp (a : ℝ) : Flat twoGraph (scaledBy (n := 0) a fun _ _ => 0) := by
  have : scaledBy (n := 0) (K := 2) a (fun _ _ => 0) = scaledBy 0 fun _ _ => 0 := by
    unfold scaledBy
    simp
  rw [this]
  exact C173_zero_flat_partial twoGraph (by norm_num) 0 0 0 (fun _ => rfl) (fun _ => rfl) (fun _ _ => rfl) _

/-! ## In between -/

/-- **C173, training value.** `expected_log_likelihood` divided by the scale — the mean log-likelihood of the frames under the
posteriors — never decreases when the scale increases. -/
theorem C173_value_monotone {X : Type} {S : ℕ} (g : CGraph S) (inner : SetModel X S) (V : inner.State → Prop) (XV : X → Prop)
    (hin : Lawful inner V XV) (st : inner.State) (hv : V st) (u : Utt X) (hu : ∀ t, XV (u.2 t)) (hf : Feasible g u)
    (a b : ℝ) (ha : 0 < a) (hab : a ≤ b) :
    ∃ x y, hmmExpLlh g inner st a u = .ok x ∧ hmmExpLlh g inner st b u = .ok y ∧ x / a ≤ y / b := by
  refine ⟨_, _, hmmExpLlh_eq g inner V XV hin st hv a u hu hf, hmmExpLlh_eq g inner V XV hin st hv b u hu hf, ?_⟩
  rcases hab.eq_or_lt with rfl | hab
  · exact le_rfl
  have hb : 0 < b := ha.trans hab
  have key : ∀ a b : ℝ, (b - a) * ∑ t, ∑ s, gam g (scoresOf inner st a u) t s * valueOf 0 (inner.llh st (u.2 t)) s ≤
      log (evidence g (asLog (scoresOf inner st b u))) - log (evidence g (asLog (scoresOf inner st a u))) := by
    intro a b
    refine le_trans (le_of_eq ?_) (evidence_gain g (scoresOf inner st a u) (scoresOf inner st b u)
      (evidence_pos_of_feasible g hf _))
    simp only [Finset.mul_sum]
    refine Finset.sum_congr rfl fun t _ => Finset.sum_congr rfl fun s _ => ?_
    unfold scoresOf
    ring
  have e : ∀ a : ℝ, a ≠ 0 → (∑ t, ∑ s, scoresOf inner st a u t s * gam g (scoresOf inner st a u) t s) / a =
      ∑ t, ∑ s, gam g (scoresOf inner st a u) t s * valueOf 0 (inner.llh st (u.2 t)) s := by
    intro a ha
    rw [Finset.sum_div]
    refine Finset.sum_congr rfl fun t _ => ?_
    rw [Finset.sum_div]
    refine Finset.sum_congr rfl fun s _ => ?_
    unfold scoresOf
    field_simp
  rw [e a ha.ne', e b hb.ne']
  have k1 := key a b
  have k2 := key b a
  have hd : 0 < b - a := by linarith
  refine le_of_mul_le_mul_left ?_ hd
  linarith

theorem best_weight {am : Frame K → Fin K} (ham : IsArgmax am) (g : CGraph K) (a : ℝ) (v : Fin (n + 1) → Fin K → ℝ)
    (p : Fin (n + 1) → Fin K) :
    graphWeight g p * exp (a * acousticScore v p) ≤
      graphWeight g (bestPath am g (scaledBy a v)) * exp (a * acousticScore v (bestPath am g (scaledBy a v))) := by
  have h := C13_best_path_optimal ham g (scaledBy a v) p
  rwa [← lexp_le_lexp, lexp_pathScore, lexp_pathScore, scaled_weight, scaled_weight] at h

theorem best_possible {am : Frame K → Fin K} (ham : IsArgmax am) (g : CGraph K) (h : Traversable g n) (a : ℝ)
    (v : Fin (n + 1) → Fin K → ℝ) : 0 < graphWeight g (bestPath am g (scaledBy a v)) := by
  obtain ⟨p, hp⟩ := h
  have := (mul_pos hp (exp_pos (a * acousticScore v p))).trans_le (best_weight ham g a v p)
  exact pos_of_mul_pos_left this (exp_pos _).le

/-- **C173, decoding.** A larger scale decodes a sequence that fits the frames at least as well, and that the graph finds at most
as probable. -/
theorem C173_decode_tradeoff {am : Frame K → Fin K} (ham : IsArgmax am) (g : CGraph K) (h : Traversable g n)
    (v : Fin (n + 1) → Fin K → ℝ) (a b : ℝ) (ha : 0 ≤ a) (hab : a < b) :
    acousticScore v (bestPath am g (scaledBy a v)) ≤ acousticScore v (bestPath am g (scaledBy b v)) ∧
      graphWeight g (bestPath am g (scaledBy b v)) ≤ graphWeight g (bestPath am g (scaledBy a v)) := by
  set p := bestPath am g (scaledBy a v) with hp
  set q := bestPath am g (scaledBy b v) with hq
  have h1 := best_weight ham g a v q
  have h2 := best_weight ham g b v p
  rw [← hp] at h1
  rw [← hq] at h2
  have wp : 0 < graphWeight g p := best_possible ham g h a v
  have wq : 0 < graphWeight g q := best_possible ham g h b v
  have hS : acousticScore v p ≤ acousticScore v q := by
    have l1 := log_le_log (by positivity) h1
    have l2 := log_le_log (by positivity) h2
    rw [log_mul wq.ne' (exp_pos _).ne', log_mul wp.ne' (exp_pos _).ne', log_exp, log_exp] at l1
    rw [log_mul wp.ne' (exp_pos _).ne', log_mul wq.ne' (exp_pos _).ne', log_exp, log_exp] at l2
    have : 0 ≤ (b - a) * (acousticScore v q - acousticScore v p) := by linarith
    have := nonneg_of_mul_nonneg_right this (by linarith : 0 < b - a)
    linarith
  refine ⟨hS, ?_⟩
  have : exp (a * acousticScore v p) ≤ exp (a * acousticScore v q) := exp_le_exp.2 (mul_le_mul_of_nonneg_left hS ha)
  have h3 : graphWeight g q * exp (a * acousticScore v p) ≤ graphWeight g p * exp (a * acousticScore v p) :=
    (mul_le_mul_of_nonneg_left this wq.le).trans h1
  exact le_of_mul_le_mul_right h3 (exp_pos _)

/-- **C173, decoding.** From some scale on, the decoded sequence has the best acoustic score of all the sequences that the graph
allows; with a scale of zero it is one that the graph finds the most probable. -/
theorem C173_decode_limits {am : Frame K → Fin K} (ham : IsArgmax am) (g : CGraph K) (v : Fin (n + 1) → Fin K → ℝ) (m : ℝ)
    (hm : BestAcoustic g v m) :
    (∃ A, ∀ a, A ≤ a → acousticScore v (bestPath am g (scaledBy a v)) = m) ∧
      ∀ p : Fin (n + 1) → Fin K, graphWeight g p ≤ graphWeight g (bestPath am g (scaledBy 0 v)) := by
  obtain ⟨⟨p0, hp0, hp0m⟩, hle⟩ := hm
  constructor
  · have hev : ∀ q : Fin (n + 1) → Fin K, 0 < graphWeight g q → acousticScore v q ≠ m →
        ∀ᶠ a : ℝ in atTop, graphWeight g q * exp (a * acousticScore v q) < graphWeight g p0 * exp (a * acousticScore v p0) := by
      intro q hq hne
      have ht := tendsto_weight (graphWeight g q) (acousticScore v q) m hq.le (hle q)
      rw [if_neg hne] at ht
      filter_upwards [ht.eventually_lt_const hp0] with a ha
      rw [hp0m]
      have := mul_lt_mul_of_pos_right ha (exp_pos (a * m))
      rwa [mul_assoc, ← exp_add, neg_add_cancel, exp_zero, mul_one] at this
    have hall : ∀ᶠ a : ℝ in atTop, ∀ q : Fin (n + 1) → Fin K, 0 < graphWeight g q → acousticScore v q ≠ m →
        graphWeight g q * exp (a * acousticScore v q) < graphWeight g p0 * exp (a * acousticScore v p0) := by
      rw [Filter.eventually_all]
      intro q
      by_cases h1 : 0 < graphWeight g q ∧ acousticScore v q ≠ m
      · filter_upwards [hev q h1.1 h1.2] with a ha _ _
        exact ha
      · exact Filter.Eventually.of_forall fun a x y => absurd ⟨x, y⟩ h1
    obtain ⟨A, hA⟩ := Filter.eventually_atTop.1 hall
    refine ⟨A, fun a ha => ?_⟩
    by_contra hne
    exact absurd (best_weight ham g a v p0) (not_le.2 (hA a ha _ (best_possible ham g ⟨p0, hp0⟩ a v) hne))
  · intro p
    have := best_weight ham g 0 v p
    simpa using this

/-- **C173, `HMM.posteriors`.** With a scale of zero the features are ignored, whatever the emissions. -/
theorem C173_posteriors_zero {d : ℕ} (m : PostCmd.PModel d) (N : ℕ) (x y : Fin N → Fin d → ℝ) :
    PostCmd.posteriors m 0 ⟨N, x⟩ = PostCmd.posteriors m 0 ⟨N, y⟩ := by
  unfold PostCmd.posteriors
  have : ∀ z : Fin N → Fin d → ℝ, (fun (t : Fin N) (k : Fin (m.graph.last + 1)) =>
      (((PostCmd.setRow m.emissions fun i => z t i * 0).getD (m.graph.pdf k) 0 : ℝ) : LogR)) =
      fun t k => (((PostCmd.setRow m.emissions fun _ => 0).getD (m.graph.pdf k) 0 : ℝ) : LogR) := by
    intro z
    simp only [mul_zero]
  split_ifs
  · rfl
  · cases N with
    | zero => rfl
    | succ N =>
      show Except.ok (List.ofFn fun t => List.ofFn fun k => PostCmd.ofPost (statePosts m.graph.graph _ t k)) =
        Except.ok (List.ofFn fun t => List.ofFn fun k => PostCmd.ofPost (statePosts m.graph.graph _ t k))
      rw [this x, this y]

example : PostCmd.posteriors twoMixtures 0 ⟨3, fun t _ => t.1⟩ = PostCmd.posteriors twoMixtures 0 ⟨3, fun _ _ => 7⟩ :=
  C173_posteriors_zero twoMixtures 3 _ _

/-! ## The hypotheses can be met -/

/-- Two frames which both prefer the second of two states. -/
def leanTwo : Fin (1 + 1) → Fin 2 → ℝ := fun _ s => s.1

theorem two_weight (p : Fin (1 + 1) → Fin 2) : graphWeight twoGraph p = 1 := by
  unfold graphWeight twoGraph
  simp

theorem leanTwo_best (q : Fin (1 + 1) → Fin 2) (h : q ≠ fun _ => 1) : acousticScore leanTwo q < acousticScore leanTwo fun _ => 1 := by
  unfold acousticScore leanTwo
  have : q 0 = 0 ∨ q 1 = 0 := by
    by_contra hc
    push Not at hc
    refine h (funext fun i => ?_)
    fin_cases i
    · show q 0 = 1
      omega
    · show q 1 = 1
      omega
  have h0 : ((q 0).1 : ℝ) ≤ 1 := by exact_mod_cast Nat.lt_succ_iff.1 (q 0).2
  have h1 : ((q 1).1 : ℝ) ≤ 1 := by exact_mod_cast Nat.lt_succ_iff.1 (q 1).2
  rw [Fin.sum_univ_two, Fin.sum_univ_two]
  rcases this with e | e
  · rw [e]
    simp only [Fin.val_zero, Fin.val_one, Nat.cast_zero, Nat.cast_one]
    linarith
  · rw [e]
    simp only [Fin.val_zero, Fin.val_one, Nat.cast_zero, Nat.cast_one]
    linarith

-- the posteriors of the second state grow to 1
example : ∃ q : ℝ → Fin (1 + 1) → Fin 2 → ℝ, (∀ a t s, statePosts twoGraph (scaledBy a leanTwo) t s = some (q a t s)) ∧
    ∀ t, Tendsto (fun a => q a t 1) atTop (𝓝 1) := by
  obtain ⟨q, h1, h2⟩ := C173_sharp_partial twoGraph leanTwo (fun _ => 1) (by rw [two_weight]; norm_num)
    fun q _ h => leanTwo_best q h
  exact ⟨q, h1, fun t => by simpa using h2 t 1⟩

theorem leanTwo_max : BestAcoustic twoGraph leanTwo 2 := by
  have e : acousticScore leanTwo (fun _ => 1) = 2 := by
    unfold acousticScore leanTwo
    norm_num [Fin.sum_univ_two]
  refine ⟨⟨fun _ => 1, by rw [two_weight]; norm_num, e⟩, fun p _ => ?_⟩
  by_cases h : p = fun _ => 1
  · rw [h, e]
  · rw [← e]
    exact (leanTwo_best p h).le

example : ∃ A, ∀ a, A ≤ a → acousticScore leanTwo (bestPath demoArgmax twoGraph (scaledBy a leanTwo)) = 2 :=
  (C173_decode_limits demoArgmax_spec twoGraph leanTwo 2 leanTwo_max).1

example : ∃ q : ℝ → Fin (1 + 1) → Fin 2 → ℝ, (∀ a t s, statePosts twoGraph (scaledBy a leanTwo) t s = some (q a t s)) ∧
    ∀ t s, Tendsto (fun a => q a t s) atTop
      (𝓝 (shareOf (fun p => if acousticScore leanTwo p = 2 then graphWeight twoGraph p else 0) t s)) :=
  C173_large_scale twoGraph leanTwo 2 leanTwo_max

example : acousticScore leanTwo (bestPath demoArgmax twoGraph (scaledBy (1 / 12) leanTwo)) ≤
    acousticScore leanTwo (bestPath demoArgmax twoGraph (scaledBy 1 leanTwo)) :=
  (C173_decode_tradeoff demoArgmax_spec twoGraph ⟨fun _ => 0, by rw [two_weight]; norm_num⟩ leanTwo (1 / 12) 1 (by norm_num)
    (by norm_num)).1

example : Flat twoGraph (scaledBy 0 leanTwo) :=
  C173_zero_flat_partial twoGraph (by norm_num) 0 0 0 (fun _ => rfl) (fun _ => rfl) (fun _ _ => rfl) leanTwo

example : statePosts twoGraph (scaledBy 0 leanTwo) 0 1 = some (shareOf (graphWeight twoGraph) (0 : Fin (1 + 1)) 1) :=
  C173_zero_scale twoGraph ⟨fun _ => 0, by rw [two_weight]; norm_num⟩ leanTwo 0 1

example : ∃ x y, hmmExpLlh coinGraph (familySet (dirFam 2) 2) coinState (1 / 5) coinUtt = .ok x ∧
    hmmExpLlh coinGraph (familySet (dirFam 2) 2) coinState 1 coinUtt = .ok y ∧ x / (1 / 5) ≤ y / 1 :=
  C173_value_monotone coinGraph _ _ _ (C87_categoricalset (by norm_num) 2) coinState coin_valid coinUtt coinUtt_valid
    (coin_feasible _) (1 / 5) 1 (by norm_num) (by norm_num)

end Verif.Props
