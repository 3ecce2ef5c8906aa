import Verif.Lemmas.LoopVB
import Verif.Props.VBTrain

/-!
# Training phone loops: C157
-/

namespace Verif.Props

open Real Verif Verif.VB Verif.Dists Verif.DistSpec Verif.Spec Verif.PhoneLoop

variable {X : Type} {M S P : ℕ}

theorem unitLogWeight_eq {inner : SetModel X M} (st : LoopState inner S) (h : DirValid P st.weights.post) (j : Fin P) :
    unitLogWeight st j = lwOf P st.weights.post j := by
  unfold unitLogWeight
  rw [logWeights_eq _ h.1]
  rfl

/-- A refresh keeps the sequences which are possible. -/
theorem feasible_refresh (conf : LoopConf M S P) (hU : LoopUnits conf) (w w' : Fin P → ℝ) (T : TMat S) (u : LUtt X M)
    (h : LoopFeasible conf (refresh conf.starts conf.ends w T) u) :
    LoopFeasible conf (refresh conf.starts conf.ends w' T) u := by
  obtain ⟨fr, ali⟩ := u
  cases ali with
  | some z => exact h
  | none =>
    have h' : 0 < evidence (⟨conf.init, conf.final, refresh conf.starts conf.ends w T⟩ : CGraph S)
      fun (_ : Fin (fr.1 + 1)) (_ : Fin S) => ((0 : ℝ) : LogR) := h
    show 0 < evidence (⟨conf.init, conf.final, refresh conf.starts conf.ends w' T⟩ : CGraph S)
      fun (_ : Fin (fr.1 + 1)) (_ : Fin S) => ((0 : ℝ) : LogR)
    rw [evidence_prior] at h' ⊢
    obtain ⟨p, _, hp⟩ := Finset.exists_ne_zero_of_sum_ne_zero h'.ne'
    refine Finset.sum_pos' (fun q _ => pathPrior_nonneg _ q) ⟨p, Finset.mem_univ _, ?_⟩
    have := pathPrior_mul (⟨conf.init, conf.final, refresh conf.starts conf.ends w T⟩ : CGraph S)
      (refresh conf.starts conf.ends w' T) (shift conf.starts conf.ends w w') (by
        intro i j
        rw [← refresh_refresh conf hU w w' T]
        exact refresh_shift conf.starts hU.starts conf.ends hU.disjoint w w' T i j) p
    rw [this]
    exact mul_pos (lt_of_le_of_ne (pathPrior_nonneg _ p) (Ne.symm hp)) (exp_pos _)

theorem valid_feasible (conf : LoopConf M S P) {inner : SetModel X M} (V : inner.State → Prop) (hU : LoopUnits conf)
    (T : TMat S) (st st' : LoopState inner S) (h : LoopValid conf V T st) (h' : LoopValid conf V T st') (u : LUtt X M)
    (hf : LoopFeasible conf st.trans u) : LoopFeasible conf st'.trans u := by
  have e : ∀ s : LoopState inner S, LoopValid conf V T s → s.trans = refresh conf.starts conf.ends (lwOf P s.weights.post) T := by
    intro s hs
    have := hs.made
    rw [make_eq conf inner T _ _ hs.weights.2] at this
    exact (congrArg LoopState.trans (Except.ok.inj this)).symm
  rw [e _ h] at hf
  rw [e _ h']
  exact feasible_refresh conf hU _ _ T u hf

/-- C157, what is proved: a step of the training of a phone loop succeeds and keeps the parameters valid, the decoding
graph that of the current weights and the same utterances possible.  The objective decreases by at most the change of the
expected log-weights of the units with which the utterances without alignment start. The missing part: that it does
not decrease, which is false (`C157_decrease`). -/
theorem C157_step_partial (conf : LoopConf M S P) (hP : 1 ≤ P) (hU : LoopUnits conf) (inner : SetModel X M)
    (V : inner.State → Prop) (XV : X → Prop) (hin : Lawful inner V XV) (T : TMat S) (st : LoopState inner S)
    (hst : LoopValid conf V T st) (a : ℝ) (ha : 0 ≤ a) (utts : List (LUtt X M))
    (hu : ∀ u ∈ utts, (∀ t, XV (u.frames.2 t)) ∧ LoopFeasible conf st.trans u) (scale l : ℝ) (hs : 0 ≤ scale)
    (h0 : 0 < l) (h1 : l ≤ 1) :
    ∃ st', loopStep conf inner st a utts scale l = .ok st' ∧ LoopValid conf V T st' ∧
      st'.weights.prior = st.weights.prior ∧ (∀ u ∈ utts, LoopFeasible conf st'.trans u) ∧
      loopObjective conf a utts scale st ≤ loopObjective conf a utts scale st' +
        scale * (utts.map fun u => ∑ j : Fin P, startProb conf st a u (conf.starts j) *
          (unitLogWeight st' j - unitLogWeight st j)).sum := by
  obtain ⟨st', e, v, _, hp, _, h⟩ := loop_step conf inner V XV hin hP hU T st hst a ha utts hu scale l hs h0 h1
  refine ⟨st', e, v, hp, fun u hm => valid_feasible conf V hU T st st' hst v u (hu u hm).2, ?_⟩
  simp only [unitLogWeight_eq _ v.weights.2, unitLogWeight_eq _ hst.weights.2]
  exact h

/-- C157: any training of a phone loop runs without exception, and the decoding graph is always the one which the
constructor makes with the current weights. -/
theorem C157_runs (conf : LoopConf M S P) (hP : 1 ≤ P) (hU : LoopUnits conf) (inner : SetModel X M)
    (V : inner.State → Prop) (XV : X → Prop) (hin : Lawful inner V XV) (T : TMat S) (a : ℝ) (ha : 0 ≤ a)
    (utts : List (LUtt X M)) (scale : ℝ) (hs : 0 ≤ scale) (ls : List ℝ) (hl : ∀ l ∈ ls, 0 < l ∧ l ≤ 1)
    (st : LoopState inner S) (hst : LoopValid conf V T st)
    (hu : ∀ u ∈ utts, (∀ t, XV (u.frames.2 t)) ∧ LoopFeasible conf st.trans u) :
    ∃ st', loopTrain conf inner a utts scale st ls = .ok st' ∧ LoopValid conf V T st' ∧
      st'.weights.prior = st.weights.prior := by
  induction ls generalizing st with
  | nil => exact ⟨st, rfl, hst, rfl⟩
  | cons l ls ih =>
    obtain ⟨h0, h1⟩ := hl l (by simp)
    obtain ⟨s1, e1, v1, p1, f1, _⟩ :=
      C157_step_partial conf hP hU inner V XV hin T st hst a ha utts hu scale l hs h0 h1
    obtain ⟨st', e2, v2, p2⟩ := ih (fun l h => hl l (by simp [h])) s1 v1 fun u h => ⟨(hu u h).1, f1 u h⟩
    refine ⟨st', ?_, v2, p2.trans p1⟩
    rw [loopTrain, e1]
    exact e2

/-- C157: when all the utterances have alignments the objective never decreases. -/
theorem C157_aligned (conf : LoopConf M S P) (hP : 1 ≤ P) (hU : LoopUnits conf) (inner : SetModel X M)
    (V : inner.State → Prop) (XV : X → Prop) (hin : Lawful inner V XV) (T : TMat S) (a : ℝ) (ha : 0 ≤ a)
    (utts : List (LUtt X M)) (hali : ∀ u ∈ utts, u.ali.isSome) (scale : ℝ) (hs : 0 ≤ scale) (ls : List ℝ)
    (hl : ∀ l ∈ ls, 0 < l ∧ l ≤ 1) (st : LoopState inner S) (hst : LoopValid conf V T st)
    (hu : ∀ u ∈ utts, (∀ t, XV (u.frames.2 t)) ∧ LoopFeasible conf st.trans u) :
    ∃ st', loopTrain conf inner a utts scale st ls = .ok st' ∧ LoopValid conf V T st' ∧
      loopObjective conf a utts scale st ≤ loopObjective conf a utts scale st' := by
  induction ls generalizing st with
  | nil => exact ⟨st, rfl, hst, le_rfl⟩
  | cons l ls ih =>
    obtain ⟨h0, h1⟩ := hl l (by simp)
    obtain ⟨s1, e1, v1, p1, f1, o1⟩ :=
      C157_step_partial conf hP hU inner V XV hin T st hst a ha utts hu scale l hs h0 h1
    obtain ⟨st', e2, v2, o2⟩ := ih (fun l h => hl l (by simp [h])) s1 v1 fun u h => ⟨(hu u h).1, f1 u h⟩
    have hz : (utts.map fun u => ∑ j : Fin P, startProb conf st a u (conf.starts j) *
        (unitLogWeight s1 j - unitLogWeight st j)).sum = 0 := by
      refine List.sum_eq_zero fun x hx => ?_
      obtain ⟨u, hu', rfl⟩ := List.mem_map.1 hx
      have hs' := hali u hu'
      obtain ⟨fr, ali⟩ := u
      cases ali with
      | none => simp at hs'
      | some z =>
        refine Finset.sum_eq_zero fun j _ => ?_
        show 0 * _ = _
        rw [zero_mul]
    rw [hz, mul_zero, add_zero] at o1
    refine ⟨st', ?_, v2, o1.trans o2⟩
    rw [loopTrain, e1]
    exact e2

theorem dir_natural_inj (p q : List ℝ) (hp : DirValid P p) (hq : DirValid P q) (hP : 1 ≤ P) (h : dirNatural p = dirNatural q) :
    p = q := by
  have hne : ∀ x : List ℝ, DirValid P x → x ≠ [] := fun x hx => ne_nil_of_length hP hx.1
  have e1 := C32_dirichlet_roundtrip p (hne p hp)
  have e2 := C32_dirichlet_roundtrip q (hne q hq)
  rw [h, e2] at e1
  exact (Except.ok.inj e1).symm

theorem vadd_zero_left (n : ℕ) (x : List ℝ) (hx : x.length = n) : vadd (List.replicate n 0) x = x := by
  subst hx
  induction x with
  | nil => rfl
  | cons y x ihx =>
    simp only [List.length_cons, List.replicate_succ, vadd, List.zipWith_cons_cons, zero_add] at ihx ⊢
    rw [ihx]

/-- C157: a full step on utterances which all have alignments puts the weights back to their prior, although the
transitions are documented as not trained then. -/
theorem C157_aligned_reset (conf : LoopConf M S P) (hP : 1 ≤ P) (hU : LoopUnits conf) (inner : SetModel X M)
    (V : inner.State → Prop) (XV : X → Prop) (hin : Lawful inner V XV) (T : TMat S) (a : ℝ) (ha : 0 ≤ a)
    (utts : List (LUtt X M)) (hali : ∀ u ∈ utts, u.ali.isSome) (scale : ℝ) (hs : 0 ≤ scale)
    (st : LoopState inner S) (hst : LoopValid conf V T st)
    (hu : ∀ u ∈ utts, (∀ t, XV (u.frames.2 t)) ∧ LoopFeasible conf st.trans u) :
    ∃ st', loopStep conf inner st a utts scale 1 = .ok st' ∧ st'.weights = ⟨st.weights.prior, st.weights.prior⟩ := by
  obtain ⟨st', e, v, _, hp, hn, _⟩ :=
    loop_step conf inner V XV hin hP hU T st hst a ha utts hu scale 1 hs one_pos le_rfl
  refine ⟨st', e, ?_⟩
  have l0 : (dirNatural st.weights.prior).length = P := dir_len hP hst.weights.1
  have l1 : (dirNatural st.weights.post).length = P := dir_len hP hst.weights.2
  have hz : ∀ us : List (LUtt X M), (∀ u ∈ us, u.ali.isSome) →
      vsmul scale (wsum P (us.map fun u => ((1 : ℝ), catStats (List.ofFn (lcounts conf inner st a u))))) =
        List.replicate P 0 := by
    intro us hus
    have hr : (us.map fun u => ((1 : ℝ), catStats (List.ofFn (lcounts conf inner st a u)))) =
        us.map fun _ => ((1 : ℝ), List.replicate P (0 : ℝ)) := by
      refine List.map_congr_left fun u h => ?_
      have hs' := hus u h
      obtain ⟨fr, ali⟩ := u
      cases ali with
      | none => simp at hs'
      | some z =>
        show ((1 : ℝ), catStats (List.ofFn fun _ : Fin P => (0 : ℝ))) = _
        rw [← catStats_zero hP, List.ofFn_const]
    rw [hr]
    clear hr hus
    induction us with
    | nil =>
      show vsmul scale (List.replicate P 0) = _
      simp [vsmul]
    | cons u us ih =>
      have e : wsum P (((u :: us).map fun _ => ((1 : ℝ), List.replicate P (0 : ℝ)))) =
          vadd (vsmul 1 (List.replicate P (0 : ℝ))) (wsum P (us.map fun _ => ((1 : ℝ), List.replicate P (0 : ℝ)))) := rfl
      rw [e]
      have h2 : vsmul 1 (List.replicate P (0 : ℝ)) = List.replicate P 0 := by simp [vsmul]
      rw [h2]
      rw [vadd_zero_left _ _ (by have := congrArg List.length ih; simpa [vsmul] using this), ih]
  rw [hz utts hali, vadd_one_step _ _ (by simp [vadd, l0, l1])] at hn
  have hadd : ∀ x : List ℝ, vadd x (List.replicate x.length 0) = x := by
    intro x
    induction x with
    | nil => rfl
    | cons y x ihx =>
      simp only [List.length_cons, List.replicate_succ, vadd, List.zipWith_cons_cons, add_zero] at ihx ⊢
      rw [ihx]
  have hz' : dirNatural st'.weights.post = dirNatural st.weights.prior := by
    rw [hn]
    have := hadd (dirNatural st.weights.prior)
    rwa [l0] at this
  have := dir_natural_inj _ _ v.weights.2 hst.weights.1 hP hz'
  ext1
  · exact hp
  · exact this

theorem hmmRows_infeasible (g : CGraph S) (inner : SetModel X S) (V : inner.State → Prop)
    (XV : X → Prop) (hin : Lawful inner V XV) (a : ℝ) (u : Utt X) (hx : ∀ t, XV (u.2 t))
    (hS : 0 < S) (hf : ¬ Feasible g u) (st : inner.State) (hv : V st) :
    hmmRows g inner st a u = .error .valueError := by
  obtain ⟨K, rfl⟩ : ∃ K, S = K + 1 := ⟨S - 1, by omega⟩
  have hev : evidence g (asLog (scoresOf inner st a u)) = 0 := by
    rw [evidence_real]
    refine Finset.sum_eq_zero fun p _ => ?_
    have hz : ∑ p : Fin (u.1 + 1) → Fin (K + 1), pathPrior g p = 0 := by
      refine le_antisymm (not_lt.1 ?_) (Finset.sum_nonneg fun p _ => pathPrior_nonneg g p)
      rw [← evidence_prior]
      exact hf
    rw [(Finset.sum_eq_zero_iff_of_nonneg fun p _ => pathPrior_nonneg g p).1 hz p (Finset.mem_univ _), zero_mul]
  unfold hmmRows
  rw [hmmLlhs_eq inner V XV hin st hv a u hx]
  show (hmmResps g (scoresOf inner st a u) >>= _) = _
  unfold hmmResps
  simp only [seqFin, C11_zero_evidence_is_nan g _ hev]
  rfl

/-- C157, error branch: an utterance for which its graph has no path stops the training. -/
theorem C157_infeasible (conf : LoopConf M S P) (inner : SetModel X M) (V : inner.State → Prop) (XV : X → Prop)
    (hin : Lawful inner V XV) (hS : 0 < S) (st : LoopState inner S) (hv : V st.comps) (a : ℝ) (u : LUtt X M)
    (hali : u.ali = none) (us : List (LUtt X M)) (hx : ∀ t, XV (u.frames.2 t))
    (hf : ¬ LoopFeasible conf st.trans u) (scale l : ℝ) (ls : List ℝ) :
    loopStep conf inner st a (u :: us) scale l = .error .valueError ∧
      loopTrain conf inner a (u :: us) scale st (l :: ls) = .error .valueError := by
  refine (fun h => ⟨h, by unfold loopTrain; rw [h]⟩ : _ → _ ∧ _) ?_
  obtain ⟨fr, ali⟩ := u
  cases hali
  have h := hmmRows_infeasible (st.graph conf) (orderedSet conf.order inner) V XV
    (orderedSet_lawful conf.order inner V XV hin) a fr hx hS hf st.comps hv
  have h' : loopAcc conf inner st a ⟨fr, none⟩ = .error .valueError := by
    unfold loopAcc
    dsimp only
    rw [h]
    rfl
  unfold loopStep
  rw [List.mapM_cons, h']
  rfl

/-! ## Decreases -/

theorem vdot_last (y : List ℝ) (n : ℕ) (hy : y.length = n) (z : ℝ) : vdot (List.replicate n 0 ++ [1]) (y ++ [z]) = z := by
  subst hy
  induction y with
  | nil => simp [vdot]
  | cons x y ih =>
    have : vdot (0 :: (List.replicate y.length 0 ++ [1])) (x :: (y ++ [z])) =
      0 * x + vdot (List.replicate y.length 0 ++ [1]) (y ++ [z]) := by simp [vdot]
    rw [List.length_cons, List.replicate_succ, List.cons_append, List.cons_append, this, ih]
    ring

theorem vdot_last_catStats (hP : 1 ≤ P) (x : Fin P → ℝ) :
    vdot (List.replicate (P - 1) 0 ++ [1]) (catStats (List.ofFn x)) = ∑ j, x j := by
  unfold catStats
  rw [vdot_last _ _ (by simp), List.sum_ofFn]

/-- C157 fails: when no state sequence of the utterances goes from the end of a unit to the start of a unit (every utterance
is one unit), the weights do not change the probability of the utterances; a step which leaves the emissions as they
are and starts at the prior of the weights decreases the objective, because it counts the first unit of each
utterance. -/
theorem C157_decrease (conf : LoopConf M S P) (hP : 2 ≤ P) (hU : LoopUnits conf) (inner : SetModel X M)
    (V : inner.State → Prop) (XV : X → Prop) (hin : Lawful inner V XV) (T : TMat S) (a : ℝ) (ha : 0 ≤ a)
    (utts : List (LUtt X M)) (scale l : ℝ) (hs : 0 < scale) (h0 : 0 < l) (h1 : l ≤ 1)
    (st st' : LoopState inner S) (hst : LoopValid conf V T st)
    (hu : ∀ u ∈ utts, u.ali = none ∧ (∀ t, XV (u.frames.2 t)) ∧ LoopFeasible conf st.trans u)
    (hone : ∀ u ∈ utts, ∀ (p : Fin (u.frames.1 + 1) → Fin S) (i : Fin u.frames.1), p i.castSucc ∈ conf.ends →
      (∃ j, conf.starts j = p i.succ) →
        pathWeight (st.graph conf) (stateScores st.comps a conf.order u.frames) p = 0)
    (hstart : ∃ u ∈ utts, ∃ j, 0 < startProb conf st a u (conf.starts j))
    (hprior : st.weights.post = st.weights.prior)
    (hstep : loopStep conf inner st a utts scale l = .ok st') (hfix : st'.comps = st.comps) :
    loopObjective conf a utts scale st' < loopObjective conf a utts scale st := by
  have hP1 : 1 ≤ P := by omega
  obtain ⟨s1, e, v, _, hp, hn, _⟩ := loop_step conf inner V XV hin hP1 hU T st hst a ha utts
    (fun u h => (hu u h).2) scale l hs.le h0 h1
  rw [hstep] at e
  cases Except.ok.inj e
  have hT : ∀ s : LoopState inner S, LoopValid conf V T s → s.trans = refresh conf.starts conf.ends (lwOf P s.weights.post) T := by
    intro s hs
    have := hs.made
    rw [make_eq conf inner T _ _ hs.weights.2] at this
    exact (congrArg LoopState.trans (Except.ok.inj this)).symm
  have hlog : ∀ u ∈ utts, uttLogProb conf st' a u = uttLogProb conf st a u := by
    intro u hm
    obtain ⟨ha', hx, hf⟩ := hu u hm
    have hone' := hone u hm
    obtain ⟨fr, ali⟩ := u
    cases ha'
    unfold uttLogProb
    dsimp only
    rw [← asLog_scores inner V XV hin conf.order st.comps hst.comps a fr hx] at hone'
    rw [hfix, ← asLog_scores inner V XV hin conf.order st.comps hst.comps a fr hx, evidence_real, evidence_real]
    congr 1
    refine Finset.sum_congr rfl fun p _ => ?_
    congr 1
    have key := pathPrior_mul (st.graph conf) st'.trans
      (shift conf.starts conf.ends (lwOf P st.weights.post) (lwOf P st'.weights.post)) (by
        intro i j
        show lexp (st'.trans i j) = lexp (st.trans i j) * _
        rw [hT _ v, hT _ hst, ← refresh_refresh conf hU (lwOf P st.weights.post) (lwOf P st'.weights.post) T]
        exact refresh_shift conf.starts hU.starts conf.ends hU.disjoint _ _ T i j) p
    have e' : (⟨(st.graph conf).init, (st.graph conf).final, st'.trans⟩ : CGraph S) = st'.graph conf := rfl
    rw [e'] at key
    rw [key]
    by_cases hz : pathPrior (st.graph conf) p = 0
    · rw [hz, zero_mul]
    · rw [Finset.sum_eq_zero, exp_zero, mul_one]
      intro i _
      unfold shift
      by_cases he : p i.castSucc ∈ conf.ends
      · rw [if_pos he]
        refine Finset.sum_eq_zero fun j _ => if_neg fun hj => hz ?_
        have := hone' p i he ⟨j, hj⟩
        rw [pathWeight_real] at this
        exact (mul_eq_zero.1 this).resolve_right (exp_pos _).ne'
      · rw [if_neg he]
  have hsum : (utts.map (uttLogProb conf st' a)).sum = (utts.map (uttLogProb conf st a)).sum := by
    rw [List.map_congr_left hlog]
  have kl : ∀ c : CParam (List ℝ), ParamValid (DirValid P) c →
      valueOf 0 ((dirFam P).paramKl c) = (dirConj hP1).D c.post c.prior := by
    intro c hc
    rw [(dirConj hP1).paramKl_eq _ hc]
    rfl
  have h00 : (dirConj hP1).D st.weights.post st.weights.prior = 0 := by
    rw [hprior]
    unfold Conj.D
    rw [vdot_vsub _ _ _ rfl]
    ring
  have hne : st'.weights.post ≠ st.weights.prior := by
    intro hc
    rw [hc, hprior] at hn
    have l0 : (dirNatural st.weights.prior).length = P := dir_len hP1 hst.weights.1
    have hlen : ∀ r ∈ utts.map (fun u => ((1 : ℝ), catStats (List.ofFn (lcounts conf inner st a u)))), r.2.length = P := by
      intro r hr
      obtain ⟨u, _, rfl⟩ := List.mem_map.1 hr
      show (catStats _).length = P
      rw [length_catStats _ (ne_nil_of_length hP1 (by simp)), List.length_ofFn]
    have lacc : (vsmul scale (wsum P (utts.map fun u => ((1 : ℝ), catStats (List.ofFn (lcounts conf inner st a u)))))).length = P := by
      have := (dirConj hP1).len_acc (utts.map fun u => ((1 : ℝ), List.ofFn (lcounts conf inner st a u))) scale (by
        intro r hr
        obtain ⟨u, hm, rfl⟩ := List.mem_map.1 hr
        refine ⟨by simp, fun x hx => ?_⟩
        rw [List.mem_ofFn] at hx
        obtain ⟨j, rfl⟩ := hx
        exact lcounts_nonneg conf inner st a u (hu u hm).2.2 j)
      unfold Conj.acc at this
      rw [List.map_map] at this
      exact this
    have := congrArg (vdot (List.replicate (P - 1) 0 ++ [1])) hn
    rw [vdot_vadd _ _ _ (by simp [vsmul, vsub, vadd, l0] at lacc ⊢; omega), vdot_vsmul,
      vdot_vsub _ _ _ (by simp [vadd, vsmul, l0] at lacc ⊢; omega), vdot_vadd _ _ _ (by rw [l0, lacc]), vdot_vsmul,
      vdot_wsum _ _ _ hlen, List.map_map] at this
    have hs' : ((utts.map ((fun r : ℝ × List ℝ => r.1 * vdot (List.replicate (P - 1) 0 ++ [1]) r.2) ∘
        fun u => ((1 : ℝ), catStats (List.ofFn (lcounts conf inner st a u))))).sum) =
        (utts.map fun u => ∑ j, lcounts conf inner st a u j).sum := by
      congr 1
      refine List.map_congr_left fun u _ => ?_
      show 1 * vdot _ (catStats _) = _
      rw [one_mul, vdot_last_catStats hP1]
    rw [hs'] at this
    have hzero : (utts.map fun u => ∑ j, lcounts conf inner st a u j).sum = 0 := by
      have h2 : l * (scale * (utts.map fun u => ∑ j, lcounts conf inner st a u j).sum) = 0 := by linarith
      rcases mul_eq_zero.1 h2 with h | h
      · exact absurd h h0.ne'
      · exact (mul_eq_zero.1 h).resolve_left hs.ne'
    obtain ⟨u, hm, j, hj⟩ := hstart
    have hge : ∑ j, lcounts conf inner st a u j ≤ (utts.map fun u => ∑ j, lcounts conf inner st a u j).sum := by
      refine List.single_le_sum ?_ _ (List.mem_map_of_mem hm)
      intro x hx
      obtain ⟨u', hm', rfl⟩ := List.mem_map.1 hx
      exact Finset.sum_nonneg fun j _ => lcounts_nonneg conf inner st a u' (hu u' hm').2.2 j
    have hge' : lcounts conf inner st a u j ≤ ∑ j, lcounts conf inner st a u j :=
      Finset.single_le_sum (fun j _ => lcounts_nonneg conf inner st a u (hu u hm).2.2 j) (Finset.mem_univ j)
    have hge'' : startProb conf st a u (conf.starts j) ≤ lcounts conf inner st a u j := by
      obtain ⟨ha', hx, hf⟩ := hu u hm
      obtain ⟨fr, ali⟩ := u
      cases ha'
      have hf' : Feasible (st.graph conf) fr := hf
      unfold startProb lcounts phoneCounts gam
      dsimp only
      rw [← asLog_scores inner V XV hin conf.order st.comps hst.comps a fr hx]
      refine le_add_of_nonneg_left (List.sum_nonneg ?_)
      intro x hx
      obtain ⟨e, _, rfl⟩ := List.mem_map.1 hx
      exact Finset.sum_nonneg fun t _ => transPosts_nonneg _ _ (evidence_pos_of_feasible _ hf' _) _ _ _
    linarith
  have hpos : 0 < (dirConj hP1).D st'.weights.post st'.weights.prior := by
    refine lt_of_le_of_ne ((dirConj hP1).kl_nonneg _ _ v.weights.2 v.weights.1) fun h => hne ?_
    rw [← hp]
    refine dir_kl_zero hP _ _ v.weights.2 v.weights.1 ?_
    rw [(dirConj hP1).kl_eq _ _ v.weights.2 v.weights.1, ← h]
  unfold loopObjective
  rw [hsum, hfix, kl _ hst.weights, kl _ v.weights, h00]
  linarith

theorem startProb_none (conf : LoopConf M S P) (inner : SetModel X M) (V : inner.State → Prop) (XV : X → Prop)
    (hin : Lawful inner V XV) (st : LoopState inner S) (hv : V st.comps) (a : ℝ) (fr : Utt X) (hx : ∀ t, XV (fr.2 t))
    (s : Fin S) :
    startProb conf st a ⟨fr, none⟩ s = gam (st.graph conf) (scoresOf (orderedSet conf.order inner) st.comps a fr) 0 s := by
  unfold startProb gam
  dsimp only
  rw [asLog_scores inner V XV hin conf.order st.comps hv a fr hx]

/-! ## Two units of two states -/

/-- Units 0 and 1 with the states 0, 1 and 2, 3; utterances start with the first state of a unit and end with the last state
of a unit. -/
noncomputable def duoConf : LoopConf 4 4 2 where
  init s := if s = 0 ∨ s = 2 then ((log (1 / 2) : ℝ) : LogR) else ⊥
  final s := if s = 1 ∨ s = 3 then ((0 : ℝ) : LogR) else ⊥
  order s := s
  starts := ![0, 2]
  ends := [1, 3]

/-- Each state is left with probability one half, for the last state of the unit from the first one. -/
noncomputable def duoTrans : TMat 4 := fun s d =>
  if s = d ∨ (s = 0 ∧ d = 1) ∨ (s = 2 ∧ d = 3) then ((log (1 / 2) : ℝ) : LogR) else ⊥

/-- Categorical emissions, the same for all the states, and weights at their prior. -/
noncomputable def duoState : LoopState (familySet (dirFam 2) 4) 4 where
  trans := refresh duoConf.starts duoConf.ends (lwOf 2 [1 / 2, 1 / 2]) duoTrans
  weights := ⟨[1 / 2, 1 / 2], [1 / 2, 1 / 2]⟩
  comps := fun _ => ⟨[1, 1], [3 / 2, 1]⟩

/-- Two frames. -/
def duoUtt : LUtt (List ℝ) 4 := ⟨⟨1, fun _ => [1, 0]⟩, none⟩

theorem duo_units : LoopUnits duoConf := by
  refine ⟨?_, by decide, ?_⟩
  · intro i j h
    fin_cases i <;> fin_cases j <;> simp [duoConf] at h ⊢
  · intro e he j
    simp only [duoConf, List.mem_cons, List.not_mem_nil, or_false] at he ⊢
    rcases he with rfl | rfl <;> fin_cases j <;> simp

theorem duo_valid : LoopValid duoConf (SetValid (DirValid 2)) duoTrans duoState := by
  refine ⟨⟨⟨rfl, by simp [duoState]⟩, ⟨rfl, by simp [duoState]⟩⟩, fun m => ⟨⟨rfl, by simp [duoState]⟩, ⟨rfl, by simp [duoState]⟩⟩, ?_⟩
  exact make_eq duoConf (familySet (dirFam 2) 4) duoTrans duoState.weights duoState.comps ⟨rfl, by simp [duoState]⟩

theorem duo_prior (p : Fin 2 → Fin 4) : pathPrior (n := 1) (duoState.graph duoConf) p =
    if (p 0 = 0 ∧ p 1 = 1) ∨ (p 0 = 2 ∧ p 1 = 3) then 1 / 4 else 0 := by
  have ht : ∀ s d : Fin 4, s = 0 ∨ s = 2 → duoState.trans s d = duoTrans s d := by
    intro s d hs
    refine refresh_other duoConf.starts duo_units.starts _ _ _ s d (.inl ?_)
    rcases hs with rfl | rfl <;> simp [duoConf]
  have e : pathPrior (n := 1) (duoState.graph duoConf) p =
      lexp (duoConf.init (p 0)) * lexp (duoState.trans (p 0) (p 1)) * lexp (duoConf.final (p 1)) := by
    unfold pathPrior
    rw [Fin.prod_univ_one]
    rfl
  rw [e]
  have hb : lexp ⊥ = 0 := rfl
  generalize p 0 = x
  generalize p 1 = y
  by_cases hx : x = 0 ∨ x = 2
  · rw [ht x y hx]
    unfold duoConf duoTrans
    rcases hx with rfl | rfl <;> fin_cases y <;> simp [hb] <;> rw [exp_neg, exp_log (by norm_num)] <;> norm_num
  · have : duoConf.init x = ⊥ := if_neg hx
    rw [this, hb, zero_mul, zero_mul, if_neg]
    rintro (h | h)
    · exact hx (.inl h.1)
    · exact hx (.inr h.1)

theorem duo_scores : ∃ κ : ℝ, ∀ (t : Fin (1 + 1)) (s : Fin 4),
    scoresOf (orderedSet duoConf.order (familySet (dirFam 2) 4)) duoState.comps 1 duoUtt.frames t s = κ := by
  have h := (dirConj (D := 2) (by norm_num)).llh_eq (⟨[1, 1], [3 / 2, 1]⟩ : CParam (List ℝ)) [1, 0] ⟨rfl, by simp⟩ ⟨rfl, by simp⟩
  obtain ⟨κ, h⟩ : ∃ κ, (dirFam 2).llh (⟨[1, 1], [3 / 2, 1]⟩ : CParam (List ℝ)) [1, 0] = .ok κ := ⟨_, h⟩
  refine ⟨κ, fun t s => ?_⟩
  refine (scoresOf_ordered (familySet (dirFam 2) 4) _ _ (C87_categoricalset (by norm_num) 4) duoConf.order duoState.comps
    duo_valid.comps 1 duoUtt.frames (fun t => ⟨rfl, by simp [duoUtt]⟩) t s).trans ?_
  have : (familySet (dirFam 2) 4).llh duoState.comps (duoUtt.frames.2 t) = .ok fun _ => κ := seqFin_ok _ _ fun m => h
  rw [this]
  exact one_mul _

theorem duo_sum (f : (Fin 2 → Fin 4) → ℝ) (hf : ∀ p, ¬ ((p 0 = 0 ∧ p 1 = 1) ∨ (p 0 = 2 ∧ p 1 = 3)) → f p = 0) :
    ∑ p, f p = f ![0, 1] + f ![2, 3] := by
  have hne : (![0, 1] : Fin 2 → Fin 4) ≠ ![2, 3] := by decide
  rw [← Finset.sum_pair hne]
  symm
  refine Finset.sum_subset (Finset.subset_univ _) fun p _ hp => hf p fun h => hp ?_
  rw [Finset.mem_insert, Finset.mem_singleton]
  rcases h with ⟨h0, h1⟩ | ⟨h0, h1⟩
  · left; funext i; fin_cases i <;> simpa
  · right; funext i; fin_cases i <;> simpa

theorem duo_gam (v : Fin (1 + 1) → Fin 4 → ℝ) (κ : ℝ) (hκ : ∀ t s, v t s = κ) (t : Fin (1 + 1)) (s : Fin 4) :
    gam (duoState.graph duoConf) v t s = if s = ![0, 1] t ∨ s = ![2, 3] t then 1 / 2 else 0 := by
  have hw : ∀ p : Fin (1 + 1) → Fin 4, pathWeight (duoState.graph duoConf) (asLog v) p =
      (if (p 0 = 0 ∧ p 1 = 1) ∨ (p 0 = 2 ∧ p 1 = 3) then 1 / 4 else 0) * exp (∑ _t : Fin (1 + 1), κ) := by
    intro p
    rw [pathWeight_real]
    congr 1
    · exact duo_prior p
    · congr 1
      exact Finset.sum_congr rfl fun t _ => hκ t (p t)
  have hE := exp_pos (∑ _t : Fin (1 + 1), κ)
  set E := exp (∑ _t : Fin (1 + 1), κ) with hEd
  have hev : evidence (duoState.graph duoConf) (asLog v) = 1 / 2 * E := by
    unfold evidence
    simp only [hw]
    refine (duo_sum _ fun p h => by rw [if_neg h, zero_mul]).trans ?_
    simp
    ring
  unfold gam
  rw [hev]
  simp only [hw]
  have := duo_sum (fun p : Fin 2 → Fin 4 => if p t = s then
    (if (p 0 = 0 ∧ p 1 = 1) ∨ (p 0 = 2 ∧ p 1 = 3) then 1 / 4 else 0) * E else 0) (fun p h => by rw [if_neg h, zero_mul]; simp)
  refine (congrArg (· / (1 / 2 * E)) this).trans ?_
  have h1 : (![2, 3] : Fin 2 → Fin 4) t ≠ (![0, 1] : Fin 2 → Fin 4) t := by
    clear this
    fin_cases t <;> decide
  by_cases ha : s = ![0, 1] t
  · have hb : ¬ (![2, 3] : Fin 2 → Fin 4) t = s := by rw [ha]; exact h1
    simp only [ha, true_or, if_true]
    rw [ha] at hb
    rw [if_neg hb]
    simp
    field_simp
    norm_num
  · by_cases hb : s = ![2, 3] t
    · have hb' : ¬ (![0, 1] : Fin 2 → Fin 4) t = s := fun h => ha h.symm
      rw [if_neg hb', if_pos hb.symm, if_pos (Or.inr hb)]
      simp
      field_simp
      norm_num
    · rw [if_neg (fun h => ha h.symm), if_neg (fun h => hb h.symm), if_neg (not_or.2 ⟨ha, hb⟩)]
      simp

theorem duo_step : (familySet (dirFam 2) 4).step duoState.comps
    ([duoUtt].map (lrows duoConf (familySet (dirFam 2) 4) duoState 1)).flatten 1 1 = .ok duoState.comps := by
  refine seqFin_ok _ _ fun m => ?_
  have hr : (([duoUtt].map (lrows duoConf (familySet (dirFam 2) 4) duoState 1)).flatten.map fun r =>
      (r.2 m, (dirFam 2).stats r.1)) =
      [(if m = 0 ∨ m = 2 then 1 / 2 else 0, [1, 1]), (if m = 1 ∨ m = 3 then 1 / 2 else 0, [1, 1])] := by
    rw [List.map_cons, List.map_nil, List.flatten_cons, List.flatten_nil, List.append_nil]
    show (pdfRows duoConf.order (List.ofFn fun t : Fin (1 + 1) => (duoUtt.frames.2 t, fun s => 1 *
      gam (duoState.graph duoConf) (scoresOf (orderedSet duoConf.order (familySet (dirFam 2) 4)) duoState.comps 1 duoUtt.frames) t s))).map _ = _
    obtain ⟨κ, hκ⟩ := duo_scores
    have hg : (fun t : Fin (1 + 1) => (duoUtt.frames.2 t, fun s => 1 * gam (duoState.graph duoConf)
        (scoresOf (orderedSet duoConf.order (familySet (dirFam 2) 4)) duoState.comps 1 duoUtt.frames) t s)) =
        fun t : Fin (1 + 1) => (([1, 0] : List ℝ), fun s : Fin 4 => if s = ![0, 1] t ∨ s = ![2, 3] t then 1 / 2 else 0) := by
      funext t
      refine Prod.ext rfl (funext fun s => ?_)
      exact (one_mul _).trans (duo_gam _ κ hκ t s)
    rw [hg]
    simp [pdfRows, List.ofFn_succ, duoConf, dirFam, catStats]
    rfl
  rw [hr]
  have hv : vsmul 1 (wsum (dirFam 2).sdim [((if m = 0 ∨ m = 2 then (1 : ℝ) / 2 else 0), [(1 : ℝ), 1]),
      ((if m = 1 ∨ m = 3 then 1 / 2 else 0), [1, 1])]) = [1 / 2, 1 / 2] := by
    fin_cases m <;> simp [vsmul, wsum, vadd, dirFam]
  rw [hv]
  show (dirFam 2).update ⟨[1, 1], [3 / 2, 1]⟩ [1 / 2, 1 / 2] 1 = .ok ⟨[1, 1], [3 / 2, 1]⟩
  unfold Family.update
  have h1 : (dirFam 2).natural [1, 1] = .ok [0, 0] := by
    simp [dirFam, dirNatural]
  have h2 : (dirFam 2).natural [3 / 2, 1] = .ok [1 / 2, 1 / 2] := by
    show Except.ok (dirNatural _) = _
    simp [dirNatural]
    norm_num
  rw [h1, h2, ok_bind, ok_bind, if_neg (by simp)]
  have h3 : (dirFam 2).fromNatural (vadd [1 / 2, 1 / 2] (vsmul 1 (vsub (vadd [0, 0] [1 / 2, 1 / 2]) [1 / 2, 1 / 2]))) =
      .ok [3 / 2, 1] := by
    show dirFromNatural (vadd [(1 : ℝ) / 2, 1 / 2] (vsmul 1 (vsub (vadd [0, 0] [1 / 2, 1 / 2]) [1 / 2, 1 / 2]))) = _
    simp [dirFromNatural, vadd, vsmul, vsub]
    norm_num
  rw [h3]
  rfl

theorem duo_feasible : LoopFeasible duoConf duoState.trans duoUtt := by
  show 0 < evidence (duoState.graph duoConf) fun (_ : Fin (1 + 1)) (_ : Fin 4) => ((0 : ℝ) : LogR)
  rw [evidence_prior]
  refine Finset.sum_pos' (fun p _ => pathPrior_nonneg _ p) ⟨![0, 1], Finset.mem_univ _, ?_⟩
  rw [show pathPrior (duoState.graph duoConf) (![0, 1] : Fin (1 + 1) → Fin 4) = _ from duo_prior ![0, 1]]
  simp

theorem duo_no_cross (p : Fin 2 → Fin 4) (h : p 0 ∈ ([1, 3] : List (Fin 4))) :
    pathPrior (n := 1) (duoState.graph duoConf) p = 0 := by
  rw [duo_prior, if_neg]
  have hp : p 0 = 1 ∨ p 0 = 3 := by simpa using h
  rintro (h' | h') <;> rcases hp with hp | hp <;> rw [hp] at h' <;> exact absurd h'.1 (by decide)

/-- C157 fails, a concrete phone loop: two units of two states, one utterance of two frames.  A step of the training
decreases the objective. -/
theorem C157_decrease_witness : ∃ st', loopStep duoConf (familySet (dirFam 2) 4) duoState 1 [duoUtt] 1 1 = .ok st' ∧
    loopObjective duoConf 1 [duoUtt] 1 st' < loopObjective duoConf 1 [duoUtt] 1 duoState := by
  have hx : ∀ u ∈ [duoUtt], (∀ t, CountsValid 2 (u.frames.2 t)) ∧ LoopFeasible duoConf duoState.trans u := by
    intro u hu
    rw [List.mem_singleton] at hu
    subst hu
    exact ⟨fun t => ⟨rfl, by simp [duoUtt]⟩, duo_feasible⟩
  have hin : Lawful (familySet (dirFam 2) 4) (SetValid (DirValid 2)) (CountsValid 2) := C87_categoricalset (by norm_num) 4
  obtain ⟨st', e, _, hc, _⟩ := loop_step duoConf (familySet (dirFam 2) 4) _ _ hin (by norm_num) duo_units duoTrans duoState
    duo_valid 1 zero_le_one [duoUtt] hx 1 1 zero_le_one one_pos le_rfl
  refine ⟨st', e, ?_⟩
  rw [duo_step] at hc
  refine C157_decrease duoConf le_rfl duo_units _ _ _ hin duoTrans 1 zero_le_one [duoUtt] 1 1 one_pos one_pos le_rfl
    duoState st' duo_valid ?_ ?_ ⟨duoUtt, by simp, 0, ?_⟩ rfl e (Except.ok.inj hc).symm
  · intro u hu
    refine ⟨?_, hx u hu⟩
    rw [List.mem_singleton] at hu
    subst hu
    rfl
  · intro u hu p i hp _
    rw [List.mem_singleton] at hu
    subst hu
    rw [← asLog_scores (familySet (dirFam 2) 4) _ _ hin duoConf.order duoState.comps duo_valid.comps 1 duoUtt.frames
      (hx duoUtt (by simp)).1]
    refine (pathWeight_real _ _ p).trans ?_
    have hi : i = (0 : Fin 1) := Subsingleton.elim (α := Fin 1) _ _
    subst hi
    rw [show pathPrior (duoState.graph duoConf) p = 0 from duo_no_cross p hp, zero_mul]
  · obtain ⟨κ, hκ⟩ := duo_scores
    have h1 := startProb_none duoConf (familySet (dirFam 2) 4) _ _ hin duoState duo_valid.comps 1 duoUtt.frames
      (hx duoUtt (by simp)).1 (duoConf.starts 0)
    have h2 := duo_gam _ κ hκ 0 (duoConf.starts 0)
    rw [if_pos (by left; rfl)] at h2
    exact lt_of_lt_of_eq (by norm_num) (h1.trans h2).symm

/-- The hypotheses of C157 hold for the two units; an aligned utterance comes with the graph of its alignment. -/
example : ∃ st', loopTrain duoConf (familySet (dirFam 2) 4) 1 [duoUtt, ⟨duoUtt.frames, some ⟨2, coinGraph, ![0, 3]⟩⟩] 10
    duoState [1, 1 / 2] = .ok st' ∧ LoopValid duoConf (SetValid (DirValid 2)) duoTrans st' ∧
      st'.weights.prior = [1 / 2, 1 / 2] := by
  refine C157_runs duoConf (by norm_num) duo_units _ _ _ (C87_categoricalset (by norm_num) 4) duoTrans 1 zero_le_one _ 10
    (by norm_num) _ ?_ duoState duo_valid ?_
  · intro l hl
    simp at hl
    rcases hl with rfl | rfl <;> norm_num
  · intro u hu
    simp only [List.mem_cons, List.not_mem_nil, or_false] at hu
    rcases hu with rfl | rfl
    · exact ⟨fun t => ⟨rfl, by simp [duoUtt]⟩, duo_feasible⟩
    · exact ⟨fun t => ⟨rfl, by simp [duoUtt]⟩, coin_feasible _⟩

/-- An utterance of one frame is too short for a unit of two states. -/
example : loopStep duoConf (familySet (dirFam 2) 4) duoState 1 [⟨⟨0, fun _ => [1, 0]⟩, none⟩, duoUtt] 1 1 = .error .valueError := by
  refine (C157_infeasible duoConf _ _ _ (C87_categoricalset (by norm_num) 4) (by norm_num) duoState duo_valid.comps 1 _ rfl _
    (fun t => ⟨rfl, by simp⟩) (fun h => ?_) 1 1 [1]).1
  have h' : 0 < evidence (duoState.graph duoConf) fun (_ : Fin (0 + 1)) (_ : Fin 4) => ((0 : ℝ) : LogR) := h
  rw [evidence_prior] at h'
  refine h'.ne' (Finset.sum_eq_zero fun p _ => ?_)
  unfold pathPrior
  have hl : (Fin.last 0) = (0 : Fin (0 + 1)) := rfl
  rw [hl]
  show lexp (duoConf.init (p 0)) * _ * lexp (duoConf.final (p 0)) = 0
  generalize p 0 = x
  have hb : lexp ⊥ = 0 := rfl
  fin_cases x <;> simp [duoConf, hb]

/-- Learnt weights are lost with a single aligned step. -/
example : ∃ st', loopStep duoConf (familySet (dirFam 2) 4)
      ⟨refresh duoConf.starts duoConf.ends (lwOf 2 [100, 1]) duoTrans, ⟨[1 / 2, 1 / 2], [100, 1]⟩, duoState.comps⟩ 1
      [⟨duoUtt.frames, some ⟨2, coinGraph, ![0, 3]⟩⟩] 1 1 = .ok st' ∧ st'.weights = ⟨[1 / 2, 1 / 2], [1 / 2, 1 / 2]⟩ := by
  refine C157_aligned_reset duoConf (by norm_num) duo_units _ _ _ (C87_categoricalset (by norm_num) 4) duoTrans 1 zero_le_one
    _ ?_ 1 zero_le_one _ ⟨⟨⟨rfl, by simp⟩, ⟨rfl, by simp⟩⟩, duo_valid.comps, ?_⟩ ?_
  · intro u hu
    rw [List.mem_singleton] at hu
    subst hu
    rfl
  · exact make_eq duoConf (familySet (dirFam 2) 4) duoTrans _ _ ⟨rfl, by simp⟩
  · intro u hu
    rw [List.mem_singleton] at hu
    subst hu
    exact ⟨fun t => ⟨rfl, by simp [duoUtt]⟩, coin_feasible _⟩

end Verif.Props
