import Verif.Props.SBTrain
import Verif.Lemmas.KL
import Verif.Spec.SBHyper

/-!
# Training of stick-breaking weights with a hyper-prior over the concentration: C159
-/

namespace Verif.Props

open Real Finset Verif Verif.VB Verif.Dists Verif.DistSpec Verif.Spec

variable {K : ℕ} [NeZero K]

omit [NeZero K] in
theorem bA_one (x : ℝ) (hx : 0 < x) : bA (1, x) = -log x := by
  unfold bA
  dsimp only
  rw [add_comm 1 x, lgamma_add_one hx]
  have : lgamma 1 = 0 := by unfold lgamma; simp
  rw [this]
  ring

omit [NeZero K] in
theorem stickDivergence_eq (a b : ℝ) (ha : 0 < a) (hb : 0 < b) (q : ℝ × ℝ) :
    stickDivergence a b q = bK q (1, a / b) + (log a - digamma a) := by
  unfold bK
  rw [bA_one _ (div_pos ha hb), log_div ha.ne' hb.ne']
  unfold stickDivergence bA bE1 bE2
  ring

omit [NeZero K] in
theorem concDivergence_eq (a b a0 b0 : ℝ) : concDivergence a b a0 b0 = klGam a b a0 b0 := by
  unfold concDivergence klGam
  ring

/-- The joint bound with the divergences of the sticks to the prior of the mean concentration. -/
theorem jointBound_eq (scale : ℝ) (data : List (Fin K → ℝ)) (a0 b0 : ℝ) (s : SBCat K) (hv : SticksValid s) (a b : ℝ)
    (ha : 0 < a) (hb : 0 < b) (hp : ∀ k, s.prior k = (1, a / b)) :
    jointBound scale data a0 b0 s.ordering s.post a b =
      sF s.prior (fun k => scale * (data.map fun x => x k).sum) s.ordering s.post - K * (log a - digamma a) -
        klGam a b a0 b0 := by
  unfold jointBound
  rw [sum_sbExpLlh, ← sF_eq s hv, concDivergence_eq]
  simp only [stickDivergence_eq a b ha hb, hp, Finset.sum_add_distrib]
  simp
  ring

omit [NeZero K] in
/-- The part of the joint bound which depends on the concentration. -/
theorem conc_part (a0 b0 : ℝ) (post : Fin K → ℝ × ℝ) (a b : ℝ) :
    -∑ k, stickDivergence a b (post k) - concDivergence a b a0 b0 =
      (∑ k, (bA (post k) + ((1 - (post k).1) * bE1 (post k) - (post k).2 * bE2 (post k)))) +
        (lgamma (a0 + K) - (a0 + K) * log (b0 - ∑ k, bE2 (post k))) - (lgamma a0 - a0 * log b0) -
        klGam a b (a0 + K) (b0 - ∑ k, bE2 (post k)) := by
  have e : ∀ q : ℝ × ℝ, stickDivergence a b q = -(digamma a - log b) -
      (bA q + ((1 - q.1) * bE1 q - q.2 * bE2 q)) - a / b * bE2 q := by
    intro q
    unfold stickDivergence bA bE1 bE2
    ring
  simp only [e, Finset.sum_sub_distrib, ← Finset.mul_sum, Finset.sum_add_distrib]
  unfold concDivergence klGam
  simp
  ring

theorem conc_best (scale : ℝ) (data : List (Fin K → ℝ)) (a0 b0 : ℝ) (ha0 : 0 < a0) (hb0 : 0 < b0) (σ : Equiv.Perm (Fin K))
    (post : Fin K → ℝ × ℝ) (hq : ∀ k, 0 < (post k).1 ∧ 0 < (post k).2) (a b : ℝ) (ha : 0 < a) (hb : 0 < b) :
    jointBound scale data a0 b0 σ post a b ≤
      jointBound scale data a0 b0 σ post (a0 + K) (b0 - ∑ k, bE2 (post k)) := by
  have hneg : ∑ k, bE2 (post k) ≤ 0 := Finset.sum_nonpos fun k _ => (digamma_sub_neg (hq k).1 (hq k).2).le
  have h1 := conc_part a0 b0 post a b
  have h2 := conc_part a0 b0 post (a0 + K) (b0 - ∑ k, bE2 (post k))
  have h3 := klGam_nonneg ha hb (show 0 < a0 + (K : ℝ) by positivity)
    (show 0 < b0 - ∑ k, bE2 (post k) by linarith)
  have h4 : klGam (a0 + K) (b0 - ∑ k, bE2 (post k)) (a0 + K) (b0 - ∑ k, bE2 (post k)) = 0 := by
    unfold klGam; ring
  unfold jointBound
  linarith

/-- What a full step does. -/
theorem hyp_step (sort : (Fin K → ℝ) → Equiv.Perm (Fin K)) {a0 b0 a b : ℝ} (ha0 : 0 < a0) (hb0 : 0 < b0) (s : SBState K)
    (hv : HypValid a0 b0 a b s) (data : List (Fin K → ℝ)) (hd : ∀ x ∈ data, ∀ k, 0 ≤ x k) (datasize : ℤ) (scale : ℝ)
    (hs : batchScale data.length datasize = .ok scale) (hspos : 0 < scale) (l : ℝ) (h0 : 0 < l) (h1 : l ≤ 1) :
    ∃ s', hypStep sort s data datasize l = .ok s' ∧
      s'.sbPost = ((sticksOf s).update sort (fun k => scale * (data.map fun x => x k).sum) l).post ∧
      s'.ordering = sort (fun k => scale * (data.map fun x => x k).sum) ∧
      HypValid a0 b0 (a0 + K) (b0 - ∑ k, bE2 (s'.sbPost k)) s' := by
  set n : Fin K → ℝ := fun k => scale * (data.map fun x => x k).sum with hn
  have hn0 : ∀ k, 0 ≤ n k := counts_nonneg scale hspos.le data hd
  have hmean := div_pos hv.pos.1 hv.pos.2
  have hval : SticksValid (sticksOf s) := ⟨fun k => by
    show 0 < (s.sbPrior k).1 ∧ 0 < (s.sbPrior k).2
    rw [hv.prior k]; exact ⟨one_pos, hmean⟩, hv.post⟩
  obtain ⟨s', e, v, c⟩ := sbStep_spec ha0 hb0 (first := fun _ => 1) (fun _ => one_pos) s
    ⟨hv.post, fun k => by rw [hv.prior k], hv.concPrior, a, b, hv.pos.1, hv.pos.2, hv.concPost, fun k => by rw [hv.prior k]⟩
    ⟨sort n, n, l⟩ ⟨hn0, h0.le, h1⟩
  dsimp only at e
  have hp : s'.sbPost = ((sticksOf s).update sort n l).post ∧ s'.ordering = sort n := by
    revert e
    unfold sbStep onStickbreakingUpdate
    dsimp only
    generalize natGradUpdate gamNatural gamFromNatural s.concPrior s.concPost _ 1 = r
    cases r with
    | error _ => intro e; cases e
    | ok post =>
      dsimp only
      unfold onConcentrationUpdate
      dsimp only
      generalize gamValue post = z
      match z with
      | [] => intro e; cases e
      | [v] => intro e; rw [← Except.ok.inj e]; exact ⟨rfl, rfl⟩
      | _ :: _ :: _ => intro e; cases e
  refine ⟨s', ?_, hp.1, hp.2, ?_⟩
  · unfold hypStep
    rw [hs, ok_bind]
    exact e
  · obtain ⟨a', b', p1, p2, p3, p4⟩ := v.conc
    have hc := c
    rw [p3] at hc
    unfold concTarget at hc
    have hab : a' = a0 + K ∧ b' = b0 - ∑ k, bE2 (s'.sbPost k) := by
      injection hc with h1 h2
      exact ⟨(List.cons.inj h1).1, (List.cons.inj h2).1⟩
    rw [← hab.1, ← hab.2]
    exact ⟨⟨p1, p2⟩, v.concPrior, p3, fun k => Prod.ext (v.prior1 k) (p4 k), v.post⟩

/-- C159: a step with learning rate one does not decrease the evidence lower bound of the joint model of the data, the sticks
and the concentration; no other posterior of the concentration has a larger one. -/
theorem C159_joint_step (sort : (Fin K → ℝ) → Equiv.Perm (Fin K)) (hsort : SortLaw sort) {a0 b0 a b : ℝ} (ha0 : 0 < a0)
    (hb0 : 0 < b0) (s : SBState K) (hv : HypValid a0 b0 a b s) (data : List (Fin K → ℝ)) (hd : ∀ x ∈ data, ∀ k, 0 ≤ x k)
    (hne : data ≠ []) (datasize : ℤ) :
    ∃ s' a' b' scale, hypStep sort s data datasize 1 = .ok s' ∧ HypValid a0 b0 a' b' s' ∧
      batchScale data.length datasize = .ok scale ∧
      jointBound scale data a0 b0 s.ordering s.sbPost a b ≤ jointBound scale data a0 b0 s'.ordering s'.sbPost a' b' ∧
      ∀ x y, 0 < x → 0 < y → jointBound scale data a0 b0 s'.ordering s'.sbPost x y ≤
        jointBound scale data a0 b0 s'.ordering s'.sbPost a' b' := by
  obtain ⟨scale, hs, hspos⟩ := batchScale_pos (List.length_pos_iff.2 hne) datasize
  obtain ⟨s', e, e1, e2, v⟩ := hyp_step sort ha0 hb0 s hv data hd datasize scale hs hspos 1 one_pos le_rfl
  have hbest := fun x y (hx : 0 < x) (hy : 0 < y) =>
    conc_best scale data a0 b0 ha0 hb0 s'.ordering s'.sbPost v.post x y hx hy
  refine ⟨s', _, _, scale, e, v, hs, ?_, hbest⟩
  refine le_trans ?_ (hbest a b hv.pos.1 hv.pos.2)
  have hmean := div_pos hv.pos.1 hv.pos.2
  have hval : SticksValid (sticksOf s) := ⟨fun k => by
    show 0 < (s.sbPrior k).1 ∧ 0 < (s.sbPrior k).2
    rw [hv.prior k]; exact ⟨one_pos, hmean⟩, hv.post⟩
  have hn0 := counts_nonneg scale hspos.le data hd
  have hval' := update_valid sort (sticksOf s) hval _ hn0 1 one_pos le_rfl
  have g := sticks_gain sort (sticksOf s) hval _ hn0 1 one_pos le_rfl (.inr ⟨rfl, hsort _, a / b, hmean, hv.prior⟩)
  have j1 := jointBound_eq scale data a0 b0 (sticksOf s) hval a b hv.pos.1 hv.pos.2 hv.prior
  have j2 := jointBound_eq scale data a0 b0 _ hval' a b hv.pos.1 hv.pos.2 hv.prior
  rw [e1, e2]
  show jointBound scale data a0 b0 (sticksOf s).ordering (sticksOf s).post a b ≤
    jointBound scale data a0 b0 (SBCat.update sort (sticksOf s) _ 1).ordering
      (SBCat.update sort (sticksOf s) _ 1).post a b
  rw [j1, j2]
  exact sub_le_sub_right (sub_le_sub_right g _) _

/-- C159: the number which `evidence_lower_bound` returns is more than the evidence lower bound of the joint model: it has
no divergence of the concentration, and the prior of the sticks is the one of the mean concentration. -/
theorem C159_reported (s : SBState K) {a0 b0 a b : ℝ} (ha0 : 0 < a0) (hb0 : 0 < b0) (hv : HypValid a0 b0 a b s)
    (data : List (Fin K → ℝ)) (hne : data ≠ []) (datasize : ℤ) :
    ∃ scale g, batchScale data.length datasize = .ok scale ∧ hypElbo s data datasize = .ok g ∧
      g = jointBound scale data a0 b0 s.ordering s.sbPost a b + concDivergence a b a0 b0 + K * (log a - digamma a) ∧
      jointBound scale data a0 b0 s.ordering s.sbPost a b < g := by
  obtain ⟨scale, hs, hspos⟩ := batchScale_pos (List.length_pos_iff.2 hne) datasize
  have hmean := div_pos hv.pos.1 hv.pos.2
  have hval : SticksValid (sticksOf s) := ⟨fun k => by
    show 0 < (s.sbPrior k).1 ∧ 0 < (s.sbPrior k).2
    rw [hv.prior k]; exact ⟨one_pos, hmean⟩, hv.post⟩
  have j1 := jointBound_eq scale data a0 b0 (sticksOf s) hval a b hv.pos.1 hv.pos.2 hv.prior
  have hk := klGam_nonneg hv.pos.1 hv.pos.2 ha0 hb0
  have hlog : digamma a < log a := by
    have hx := hv.pos.1
    have d1 := digamma_add_one hx
    have d2 := digamma_le_log (show 0 < a + 1 by linarith)
    have d3 : log (a + 1) = log a + log (1 + 1 / a) := by
      rw [← log_mul hx.ne' (by positivity)]
      congr 1
      field_simp
    have d4 := log_lt_sub_one_of_pos (show 0 < 1 + 1 / a by positivity)
      (by have : 0 < 1 / a := by positivity
          linarith)
    linarith
  have hK : (0 : ℝ) < K := by exact_mod_cast Nat.pos_of_ne_zero (NeZero.ne K)
  have e : sF (sticksOf s).prior (fun k => scale * (data.map fun x => x k).sum) (sticksOf s).ordering (sticksOf s).post =
      jointBound scale data a0 b0 s.ordering s.sbPost a b + concDivergence a b a0 b0 + K * (log a - digamma a) := by
    have j1' : jointBound scale data a0 b0 s.ordering s.sbPost a b = _ := j1
    rw [j1', concDivergence_eq]
    ring
  refine ⟨scale, _, hs, elbo_eq _ hval data datasize scale hs, e, ?_⟩
  rw [e, concDivergence_eq]
  have := mul_pos hK (sub_pos.2 hlog)
  linarith

/-- C159: steps with learning rate one on the same batch never decrease the evidence lower bound of the joint model. -/
theorem C159_joint_training (sort : (Fin K → ℝ) → Equiv.Perm (Fin K)) (hsort : SortLaw sort) {a0 b0 : ℝ} (ha0 : 0 < a0)
    (hb0 : 0 < b0) (data : List (Fin K → ℝ)) (hd : ∀ x ∈ data, ∀ k, 0 ≤ x k) (hne : data ≠ []) (datasize : ℤ) (steps : ℕ)
    {a b : ℝ} (s : SBState K) (hv : HypValid a0 b0 a b s) :
    ∃ s' a' b' scale, hypTrain sort datasize s (List.replicate steps data) = .ok s' ∧ HypValid a0 b0 a' b' s' ∧
      batchScale data.length datasize = .ok scale ∧
      jointBound scale data a0 b0 s.ordering s.sbPost a b ≤ jointBound scale data a0 b0 s'.ordering s'.sbPost a' b' := by
  induction steps generalizing s a b with
  | zero =>
    obtain ⟨scale, hs, _⟩ := batchScale_pos (List.length_pos_iff.2 hne) datasize
    exact ⟨s, a, b, scale, rfl, hv, hs, le_rfl⟩
  | succ m ih =>
    obtain ⟨s1, a1, b1, sc, e1, v1, hs, hle, _⟩ := C159_joint_step sort hsort ha0 hb0 s hv data hd hne datasize
    obtain ⟨s', a', b', sc', e2, v2, hs', hle'⟩ := ih s1 v1
    rw [hs] at hs'
    have := Except.ok.inj hs'
    subst this
    refine ⟨s', a', b', sc, ?_, v2, hs, hle.trans hle'⟩
    rw [List.replicate_succ, hypTrain, e1]
    exact e2

omit [NeZero K] in
/-- C159: what `create` makes. -/
theorem C159_create (strength hyper : ℝ) (hs : 0 < strength) (hh : 0 < hyper) :
    ∃ s : SBState K, hypCreate K strength hyper = .ok s ∧
      HypValid hyper (hyper / strength) hyper (hyper / strength) s ∧ s.ordering = 1 ∧ ∀ k, s.sbPrior k = (1, strength) := by
  have e : hyper / (hyper / strength) = strength := by field_simp
  refine ⟨_, rfl, ⟨⟨hh, by positivity⟩, rfl, rfl, fun k => rfl, fun k => ⟨one_pos, hs⟩⟩, rfl, fun k => ?_⟩
  show ((1 : ℝ), hyper / (hyper / strength)) = _
  rw [e]

/-! ## The number returned by `evidence_lower_bound` can decrease -/

omit [NeZero K] in
theorem digamma_shift (x : ℝ) (hx : 0 < x) (m : ℕ) : digamma (x + m) - digamma x = ∑ i ∈ range m, 1 / (x + i) := by
  induction m with
  | zero => simp
  | succ m ih =>
    rw [Finset.sum_range_succ, ← ih]
    have := digamma_add_one (show 0 < x + m by positivity)
    rw [show x + ((m + 1 : ℕ) : ℝ) = x + m + 1 by push_cast; ring, this]
    ring

omit [NeZero K] in
theorem bE2_shift (x : ℝ) (hx : 0 < x) (m : ℕ) : bE2 (m, x) = -∑ i ∈ range m, 1 / (x + i) := by
  rw [← digamma_shift x hx m]
  unfold bE2
  dsimp only
  rw [add_comm]
  ring

omit [NeZero K] in
theorem coin_scale (a b : ℕ) (ha : 0 < a) : batchScale (coinBatch a b).length (-1) = .ok 1 := by
  unfold batchScale
  have hl : (coinBatch a b).length = a + b := by simp [coinBatch]
  have : ((a + b : ℕ) : ℝ) ≠ 0 := by positivity
  rw [hl, if_neg (by omega), if_pos (by norm_num), Int.cast_natCast, div_self this]

omit [NeZero K] in
theorem coin_counts (a b : ℕ) : (fun k => (1 : ℝ) * ((coinBatch a b).map fun x => x k).sum) =
    fun k => if k = 0 then (a : ℝ) else b := by
  funext k
  rw [coinBatch_sum, one_mul]

omit [NeZero K] in
theorem coin_nonneg (a b : ℕ) : ∀ x ∈ coinBatch a b, ∀ k, 0 ≤ x k := by
  intro x hx k
  rcases List.mem_append.1 hx with h | h <;> rw [(List.mem_replicate.1 h).2] <;> dsimp only <;> split_ifs <;> norm_num

omit [NeZero K] in
/-- A full step on `n` observations of the first category. -/
theorem hyp_coin (sort : (Fin 2 → ℝ) → Equiv.Perm (Fin 2)) (hsort : SortLaw sort) {a b : ℝ} (s : SBState 2)
    (hv : HypValid 4 2 a b s) (n : ℕ) (hn : 0 < n) (α : ℝ) (hα : a / b = α) :
    ∃ s' a' b', hypStep sort s (coinBatch n 0) (-1) 1 = .ok s' ∧ HypValid 4 2 a' b' s' ∧
      a' / b' = 6 / (2 + (∑ i ∈ range (n + 1), 1 / (α + i)) + 1 / α) ∧ s'.ordering = 1 ∧
      s'.sbPost 0 = (((n + 1 : ℕ) : ℝ), α) ∧ s'.sbPost 1 = (((1 : ℕ) : ℝ), α) := by
  have hα0 : 0 < α := hα ▸ div_pos hv.pos.1 hv.pos.2
  obtain ⟨s', e, e1, e2, v⟩ := hyp_step sort (by norm_num) (by norm_num) s hv _ (coin_nonneg n 0) (-1) 1
    (coin_scale n 0 hn) one_pos 1 one_pos le_rfl
  rw [coin_counts] at e1 e2
  have o : sort (fun k => if k = 0 then (n : ℝ) else ((0 : ℕ) : ℝ)) = 1 := by
    rcases perm_two (sort fun k => if k = 0 then (n : ℝ) else ((0 : ℕ) : ℝ)) with h | h
    · exact h
    · have := hsort (fun k => if k = 0 then (n : ℝ) else ((0 : ℕ) : ℝ)) 0 1 (by decide)
      rw [h] at this
      have hn' : (0 : ℝ) < n := by exact_mod_cast hn
      norm_num at this
      omega
  have p0 : s'.sbPost 0 = (((n + 1 : ℕ) : ℝ), α) := by
    rw [e1, update_post, o, (after_id _).1]
    show ((1 - 1) * _ + 1 * ((s.sbPrior 0).1 + _), (1 - 1) * _ + 1 * ((s.sbPrior 0).2 + _)) = _
    rw [hv.prior 0, hα]
    ext <;> simp
    ring
  have p1 : s'.sbPost 1 = (((1 : ℕ) : ℝ), α) := by
    rw [e1, update_post, o, (after_id _).2]
    show ((1 - 1) * _ + 1 * ((s.sbPrior 1).1 + _), (1 - 1) * _ + 1 * ((s.sbPrior 1).2 + _)) = _
    rw [hv.prior 1, hα]
    ext <;> simp
  refine ⟨s', _, _, e, v, ?_, e2.trans o, p0, p1⟩
  rw [Fin.sum_univ_two, p0, p1, bE2_shift α hα0, bE2_shift α hα0, Finset.sum_range_one]
  norm_num
  congr 1
  ring

omit [NeZero K] in
/-- The number returned for one observation of the first category, after a step on it. -/
theorem hyp_coin_value {a b : ℝ} (s : SBState 2) (hv : HypValid 4 2 a b s) (α : ℝ) (hα : 0 < α) (o : s.ordering = 1)
    (p0 : s.sbPost 0 = (((2 : ℕ) : ℝ), α)) (p1 : s.sbPost 1 = (((1 : ℕ) : ℝ), α)) :
    hypElbo s (coinBatch 1 0) (-1) = .ok ((a / b - α) * (-(2 / α) - 1 / (α + 1)) + 2 * log (a / b) - 2 * log α -
      log (α + 1)) := by
  have hmean := div_pos hv.pos.1 hv.pos.2
  have hval : SticksValid (sticksOf s) := ⟨fun k => by
    show 0 < (s.sbPrior k).1 ∧ 0 < (s.sbPrior k).2
    rw [hv.prior k]; exact ⟨one_pos, hmean⟩, hv.post⟩
  unfold hypElbo
  rw [elbo_eq _ hval _ _ 1 (coin_scale 1 0 one_pos), coin_counts]
  congr 1
  unfold sF
  have q0 : (sticksOf s).post 0 = (((2 : ℕ) : ℝ), α) := p0
  have q1 : (sticksOf s).post 1 = (((1 : ℕ) : ℝ), α) := p1
  have qo : (sticksOf s).ordering = 1 := o
  have qp : ∀ k, (sticksOf s).prior k = (1, a / b) := hv.prior
  rw [Fin.sum_univ_two, q0, q1, qo, qp, qp, (after_id _).1, (after_id _).2]
  have e2 := bE2_shift α hα 2
  have e1 := bE2_shift α hα 1
  have b2 : bA (((2 : ℕ) : ℝ), α) = -log α - log (α + 1) := by
    unfold bA
    have l1 := lgamma_add_one hα
    have l2 := lgamma_add_one (show 0 < α + 1 by linarith)
    have l3 := lgamma_nat 1
    norm_num at l3 ⊢
    rw [show (2 : ℝ) + α = α + 1 + 1 by ring, l2, l1, l3]
    ring
  have b1 : bA (((1 : ℕ) : ℝ), α) = -log α := by
    rw [Nat.cast_one]
    exact bA_one α hα
  unfold bF bK
  rw [bA_one _ hmean, b2, b1, e2, e1]
  norm_num [Finset.sum_range_succ]
  field_simp
  ring

omit [NeZero K] in
theorem log_three {x y z : ℝ} (hx : 0 < x) (hy : 0 < y) (hz : 0 < z) :
    2 * log z - 2 * log y - log (y + 1) - (2 * log y - 2 * log x - log (x + 1)) =
      log (z ^ 2 * x ^ 2 * (x + 1) / (y ^ 2 * y ^ 2 * (y + 1))) := by
  rw [log_div (by positivity) (by positivity), log_mul (by positivity) (by positivity), log_mul (by positivity) (by positivity),
    log_mul (by positivity) (by positivity), log_mul (by positivity) (by positivity), log_pow, log_pow, log_pow]
  push_cast
  ring

/-- C159, negation: a new model with two categories, concentration 2 and hyper-prior strength 4; one batch of four
observations of the first category, then two steps on one observation of it: the second one decreases the number which
`evidence_lower_bound` returns for its own batch. -/
theorem C159_reported_decrease (sort : (Fin 2 → ℝ) → Equiv.Perm (Fin 2)) (hsort : SortLaw sort) :
    ∃ s0 s1 s2 g g', hypCreate 2 2 4 = .ok s0 ∧ hypTrain sort (-1) s0 [coinBatch 4 0, coinBatch 1 0] = .ok s1 ∧
      hypStep sort s1 (coinBatch 1 0) (-1) 1 = .ok s2 ∧ hypElbo s1 (coinBatch 1 0) (-1) = .ok g ∧
      hypElbo s2 (coinBatch 1 0) (-1) = .ok g' ∧ g' < g := by
  obtain ⟨s0, e0, v0, _, _⟩ := C159_create (K := 2) 2 4 (by norm_num) (by norm_num)
  rw [show (4 : ℝ) / 2 = 2 by norm_num] at v0
  obtain ⟨t1, a1, b1, f1, v1, m1, _, _, _⟩ := hyp_coin sort hsort s0 v0 4 (by norm_num) 2 (by norm_num)
  have m1' : a1 / b1 = 120 / 79 := by rw [m1]; norm_num [Finset.sum_range_succ]
  obtain ⟨s1, a2, b2, f2, v2, m2, o2, p2, q2⟩ := hyp_coin sort hsort t1 v1 1 (by norm_num) _ m1'
  have m2' : a2 / b2 = 71640 / 44341 := by rw [m2]; norm_num [Finset.sum_range_succ]
  obtain ⟨s2, a3, b3, f3, v3, m3, o3, p3, q3⟩ := hyp_coin sort hsort s1 v2 1 (by norm_num) _ m2'
  have m3' : a3 / b3 = 24926636520 / 15039886981 := by rw [m3]; norm_num [Finset.sum_range_succ]
  refine ⟨s0, s1, s2, _, _, e0, ?_, f3, hyp_coin_value s1 v2 _ (by norm_num) o2 p2 q2,
    hyp_coin_value s2 v3 _ (by norm_num) o3 p3 q3, ?_⟩
  · simp only [hypTrain, f1, f2]
  · rw [m2', m3']
    have key : 2 * log (24926636520 / 15039886981) - 2 * log (71640 / 44341) - log (71640 / 44341 + 1) -
        (2 * log (71640 / 44341) - 2 * log (120 / 79) - log (120 / 79 + 1)) =
        log ((24926636520 / 15039886981) ^ 2 * (120 / 79) ^ 2 * (120 / 79 + 1) / ((71640 / 44341) ^ 2 * (71640 / 44341) ^ 2 *
          (71640 / 44341 + 1))) := by
      exact log_three (by norm_num) (by norm_num) (by norm_num)
    have hle := log_le_sub_one_of_pos (show (0 : ℝ) < (24926636520 / 15039886981) ^ 2 * (120 / 79) ^ 2 * (120 / 79 + 1) /
      ((71640 / 44341) ^ 2 * (71640 / 44341) ^ 2 * (71640 / 44341 + 1)) by norm_num)
    rw [← key] at hle
    norm_num at hle ⊢
    linarith

/-! ## Examples -/

example : ∃ s' a' b' scale, hypTrain (fun n : Fin 2 → ℝ => Tuple.sort fun k => -n k) 100
      (⟨fun _ => (1, 2), fun _ => (1, 2), 1, ⟨[4], [2]⟩, ⟨[4], [2]⟩⟩ : SBState 2) (List.replicate 5 (coinBatch 2 5)) = .ok s' ∧
    HypValid 4 2 a' b' s' ∧ batchScale (coinBatch 2 5).length 100 = .ok scale ∧
    jointBound scale (coinBatch 2 5) 4 2 1 (fun _ => (1, 2)) 4 2 ≤ jointBound scale (coinBatch 2 5) 4 2 s'.ordering s'.sbPost a' b' :=
  C159_joint_training _ (fun n i j h => by have := Tuple.monotone_sort (fun k => -n k) h; simpa using this) (by norm_num)
    (by norm_num) _ (coin_nonneg 2 5) (by decide) 100 5 _
    ⟨⟨by norm_num, by norm_num⟩, rfl, rfl, fun _ => by norm_num, fun _ => ⟨by norm_num, by norm_num⟩⟩

example : ∃ scale g, batchScale (coinBatch 2 5).length (-1) = .ok scale ∧
    hypElbo (⟨fun _ => (1, 2), fun _ => (3, 2), 1, ⟨[4], [2]⟩, ⟨[4], [2]⟩⟩ : SBState 2) (coinBatch 2 5) (-1) = .ok g ∧
    jointBound scale (coinBatch 2 5) 4 2 1 (fun _ => (3, 2)) 4 2 < g := by
  obtain ⟨sc, g, h1, h2, _, h3⟩ := C159_reported (⟨fun _ => (1, 2), fun _ => (3, 2), 1, ⟨[4], [2]⟩, ⟨[4], [2]⟩⟩ : SBState 2)
    (show (0 : ℝ) < 4 by norm_num) (show (0 : ℝ) < 2 by norm_num)
    ⟨⟨by norm_num, by norm_num⟩, rfl, rfl, fun _ => by norm_num, fun _ => ⟨by norm_num, by norm_num⟩⟩ (coinBatch 2 5) (by decide) (-1)
  exact ⟨sc, g, h1, h2, h3⟩

end Verif.Props
