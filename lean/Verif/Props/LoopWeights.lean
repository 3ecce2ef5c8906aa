import Verif.Lemmas.LoopLaws

/-!
# Training bigram phone loops and phone loops with stick-breaking weights: C160, C161
-/

namespace Verif.Props

open Real Verif Verif.VB Verif.Dists Verif.DistSpec Verif.Spec Verif.PhoneLoop

variable {X : Type} {M S P : ℕ}

/-! ## C160: bigram phone loops -/

/-- C160, bigram phone loops with the stick-breaking weights of `hmm mkphoneloopbigram`: any training on utterances without
alignments runs without exception and never decreases the objective, whatever the learning rates; the decoding graph is
always the one of the current weights. -/
theorem C160_sticks [NeZero P] (conf : WConf M S) (starts ends : Fin P → Fin S) (hU : UnitStates starts ends)
    (ordering : Equiv.Perm (Fin P)) (inner : SetModel X M) (V : inner.State → Prop) (XV : X → Prop) (hin : Lawful inner V XV)
    (T : TMat S) (a : ℝ) (ha : 0 ≤ a) (utts : List (LUtt X M)) (hali : ∀ u ∈ utts, u.ali = none) (scale : ℝ) (hs : 0 ≤ scale)
    (ls : List ℝ) (hl : ∀ l ∈ ls, 0 < l ∧ l ≤ 1) (st : WState inner (sbSetWeights ordering) S)
    (hst : WValid (bigramClass .sbCategoricalSet starts ends) V SetSticksValid T st)
    (hu : ∀ u ∈ utts, (∀ t, XV (u.frames.2 t)) ∧ WFeasible conf st.trans u) :
    ∃ st', wTrain conf (bigramClass .sbCategoricalSet starts ends) a utts scale st ls = .ok st' ∧
      WValid (bigramClass .sbCategoricalSet starts ends) V SetSticksValid T st' ∧ (∀ u ∈ utts, WFeasible conf st'.trans u) ∧
      wObjective sbSetDiv conf a utts scale st ≤ wObjective sbSetDiv conf a utts scale st' := by
  obtain ⟨st', e, v, f, o⟩ := w_train conf (bigramClass .sbCategoricalSet starts ends) V XV hin (bigram_law _ starts ends hU) rfl
    (sbSet_gain ordering) T a ha utts (fun u h => .inl (hali u h)) scale hs ls hl st hst hu
  exact ⟨st', e, v, f, o (fun _ _ _ _ => trivial) (fun _ _ _ _ => rfl) rfl⟩

/-- C160, what is proved of bigram phone loops with Dirichlet weights: a step runs and keeps the parameters valid, the decoding
graph that of the weights and the same utterances possible.  The objective decreases by at most the counts of "unit `j`
after unit `i`" times what the expected log-weight of `j` in the row of `i` gains more than that of `i` in the row of
`j`. The missing part: that it does not decrease, which is false (`C160_rows_decrease`), since the rows of the weights are
installed as columns. -/
theorem C160_rows_partial (hP : 1 ≤ P) (conf : WConf M S) (starts ends : Fin P → Fin S) (hU : UnitStates starts ends)
    (inner : SetModel X M) (V : inner.State → Prop) (XV : X → Prop) (hin : Lawful inner V XV)
    (T : TMat S) (a : ℝ) (ha : 0 ≤ a) (utts : List (LUtt X M)) (hali : ∀ u ∈ utts, u.ali = none) (scale : ℝ) (hs : 0 ≤ scale)
    (l : ℝ) (h0 : 0 < l) (h1 : l ≤ 1) (st : WState inner (dirSetWeights P) S)
    (hst : WValid (bigramClass .categoricalSet starts ends) V RowsValid T st)
    (hu : ∀ u ∈ utts, (∀ t, XV (u.frames.2 t)) ∧ WFeasible conf st.trans u) :
    ∃ st', wStep conf (bigramClass .categoricalSet starts ends) st a utts scale l = .ok st' ∧
      WValid (bigramClass .categoricalSet starts ends) V RowsValid T st' ∧
      (∀ u ∈ utts, WFeasible conf st'.trans u) ∧
      ∃ N : Fin P × Fin P → ℝ, (∀ i, 0 ≤ N i) ∧ (dirSetWeights P).update st.weights N l = .ok st'.weights ∧
        wObjective dirSetDiv conf a utts scale st ≤ wObjective dirSetDiv conf a utts scale st' +
          ∑ i, ∑ j, N (i, j) * ((lwOf P (rowsOf st'.weights i).post j - lwOf P (rowsOf st.weights i).post j) -
            (lwOf P (rowsOf st'.weights j).post i - lwOf P (rowsOf st.weights j).post i)) := by
  have hL := bigram_law .categoricalSet starts ends hU
  obtain ⟨st', e, v, _, w, o⟩ := w_step conf (bigramClass .categoricalSet starts ends) V XV hin hL rfl (dirSet_gain hP) T st hst
    a ha utts hu (fun u h => .inl (hali u h)) scale l hs h0 h1
  refine ⟨st', e, v, fun u h => w_feasible conf _ V hL hst v u (hu u h).2, _, fun i => mul_nonneg hs (List.sum_nonneg ?_), w, ?_⟩
  · intro x hx
    obtain ⟨u, hu', rfl⟩ := List.mem_map.1 hx
    exact wcounts_nonneg conf _ hL st a u (hu u hu').2 i
  · have o := o trivial
    simp only [zero_mul, Finset.sum_const_zero] at o
    rw [Fintype.sum_prod_type] at o
    have hz : (utts.map fun _ : LUtt X M => (0 : ℝ)).sum = 0 := by simp
    rw [hz, mul_zero, add_zero] at o
    exact o

/-- C160, error branch: a step on utterances one of which has an alignment raises an exception, a `TypeError` with Dirichlet
weights, a `NotImplementedError` with stick-breaking weights. -/
theorem C160_aligned {W : WeightModel (Fin P × Fin P)} (kind : CatSetKind) (conf : WConf M S) (starts ends : Fin P → Fin S)
    (inner : SetModel X M) (V : inner.State → Prop) (XV : X → Prop) (hin : Lawful inner V XV) (st : WState inner W S)
    (hv : V st.comps) (a : ℝ) (utts : List (LUtt X M))
    (hu : ∀ u ∈ utts, (∀ t, XV (u.frames.2 t)) ∧ WFeasible conf st.trans u) (hali : ∃ u ∈ utts, u.ali ≠ none) (scale l : ℝ) :
    wStep conf (bigramClass kind starts ends) st a utts scale l =
      .error (alignedError kind) := by
  have herr : (bigramClass (P := P) (S := S) kind starts ends).aligned =
      .error (alignedError kind) := by
    cases kind <;> rfl
  have key : ∀ us : List (LUtt X M), (∀ u ∈ us, (∀ t, XV (u.frames.2 t)) ∧ WFeasible conf st.trans u) →
      (∃ u ∈ us, u.ali ≠ none) → us.mapM (wAcc conf (bigramClass kind starts ends) st a) =
        .error (alignedError kind) := by
    intro us hus hex
    induction us with
    | nil => obtain ⟨u, h, _⟩ := hex; simp at h
    | cons u us ih =>
      rw [List.mapM_cons]
      by_cases hn : u.ali = none
      · rw [wAcc_eq conf _ V XV hin st hv a u (hus u (by simp)).1 (hus u (by simp)).2 (.inl hn), ok_bind, ih]
        · rfl
        · exact fun u h => hus u (by simp [h])
        · obtain ⟨u', h, hu'⟩ := hex
          rcases List.mem_cons.1 h with rfl | h
          · exact absurd hn hu'
          · exact ⟨u', h, hu'⟩
      · rw [wAcc_aligned conf _ V XV hin st hv a u (hus u (by simp)).1 (hus u (by simp)).2 hn _ herr]
        rfl
  unfold wStep
  rw [key utts hu hali]
  rfl

/-- C160, error branch: an utterance for which the decoding graph has no path stops the training. -/
theorem C160_infeasible {W : WeightModel (Fin P × Fin P)} (kind : CatSetKind) (conf : WConf M S) (starts ends : Fin P → Fin S)
    (inner : SetModel X M) (V : inner.State → Prop) (XV : X → Prop) (hin : Lawful inner V XV) (hS : 0 < S)
    (st : WState inner W S) (hv : V st.comps) (a : ℝ) (u : LUtt X M) (hali : u.ali = none) (us : List (LUtt X M))
    (hx : ∀ t, XV (u.frames.2 t)) (hf : ¬ WFeasible conf st.trans u) (scale l : ℝ) (ls : List ℝ) :
    wStep conf (bigramClass kind starts ends) st a (u :: us) scale l = .error .valueError ∧
      wTrain conf (bigramClass kind starts ends) a (u :: us) scale st (l :: ls) = .error .valueError :=
  w_infeasible conf _ V XV hin hS st hv a u hali us hx hf scale l ls

/-! The same facts, for the states of the model of the weights. -/

theorem rows_update (hP : 1 ≤ P) (w : (dirSetWeights P).State) (n : Fin P × Fin P → ℝ) (l : ℝ)
    (hv : RowsValid (rowsOf w)) (hn : ∀ i, 0 ≤ n i) (h0 : 0 < l) (h1 : l ≤ 1) :
    ∃ w', (dirSetWeights P).update w n l = .ok w' ∧ ∀ k, (rowsOf w' k).prior = (rowsOf w k).prior ∧
      DirValid P (rowsOf w' k).post ∧
      dirNatural (rowsOf w' k).post = vadd (dirNatural (rowsOf w k).post) (vsmul l (vsub (vadd (dirNatural (rowsOf w k).prior)
        (catStats (List.ofFn fun j => n (k, j)))) (dirNatural (rowsOf w k).post))) :=
  dirSet_update hP w n l hv hn h0 h1

theorem rows_logW (w : (dirSetWeights P).State) (i j : Fin P) :
    (dirSetWeights P).logW w (i, j) = lwOf P (rowsOf w j).post i := dirSet_logW w i j

theorem rows_div (w : (dirSetWeights P).State) : dirSetDiv w = ∑ k, valueOf 0 ((dirFam P).paramKl (rowsOf w k)) := rfl

theorem catStats_zero_step (hP : 1 ≤ P) (x p : List ℝ) (l : ℝ) (hx : x.length = P) (hp : p = x) :
    vadd p (vsmul l (vsub (vadd x (catStats (List.ofFn fun _ : Fin P => (0 : ℝ)))) p)) = x := by
  subst hp
  rw [← catStats_zero hP, List.ofFn_const, ← hx]
  clear hx
  induction p with
  | nil => rfl
  | cons y p ih =>
    simp only [List.length_cons, List.replicate_succ, vadd, vsmul, vsub, List.zipWith_cons_cons, List.map_cons, add_zero, sub_self,
      mul_zero] at ih ⊢
    rw [ih]

/-- C160 fails for Dirichlet weights: when the units which are left for another one (`left`) are never entered from
another one (utterances of at most two units), a step which leaves the emissions as they are and starts at the prior of the
weights decreases the objective: the probabilities of the possible sequences come from the rows of the units
entered, and the counts change the rows of the units left. -/
theorem C160_rows_decrease (hP : 2 ≤ P) (conf : WConf M S) (starts ends : Fin P → Fin S) (hU : UnitStates starts ends)
    (inner : SetModel X M) (V : inner.State → Prop) (XV : X → Prop) (hin : Lawful inner V XV)
    (T : TMat S) (a : ℝ) (ha : 0 ≤ a) (utts : List (LUtt X M)) (hali : ∀ u ∈ utts, u.ali = none) (scale : ℝ) (hs : 0 < scale)
    (l : ℝ) (h0 : 0 < l) (h1 : l ≤ 1) (st st' : WState inner (dirSetWeights P) S)
    (hst : WValid (bigramClass .categoricalSet starts ends) V RowsValid T st)
    (hu : ∀ u ∈ utts, (∀ t, XV (u.frames.2 t)) ∧ WFeasible conf st.trans u) (left : Fin P → Prop)
    (hleft : ∀ u ∈ utts, ∀ (p : Fin (u.frames.1 + 1) → Fin S) (i : Fin u.frames.1) (k j : Fin P), p i.castSucc = ends k →
      p i.succ = starts j → 0 < pathPrior (st.graph conf) p → left k ∧ ¬ left j)
    (hcross : ∃ u ∈ utts, ∃ (p : Fin (u.frames.1 + 1) → Fin S) (i : Fin u.frames.1) (k j : Fin P), p i.castSucc = ends k ∧
      p i.succ = starts j ∧ 0 < pathPrior (st.graph conf) p)
    (hprior : ∀ k : Fin P, (rowsOf st.weights k).post = (rowsOf st.weights k).prior)
    (hstep : wStep conf (bigramClass .categoricalSet starts ends) st a utts scale l = .ok st') (hfix : st'.comps = st.comps) :
    wObjective dirSetDiv conf a utts scale st' < wObjective dirSetDiv conf a utts scale st := by
  have hP1 : 1 ≤ P := by omega
  have hL := bigram_law .categoricalSet starts ends hU
  obtain ⟨s1, e, v, _, w, _⟩ := w_step conf (bigramClass .categoricalSet starts ends) V XV hin hL rfl (dirSet_gain hP1) T st hst
    a ha utts hu (fun u h => .inl (hali u h)) scale l hs.le h0 h1
  rw [hstep] at e
  cases Except.ok.inj e
  clear e
  set N : Fin P × Fin P → ℝ := fun i => scale * (utts.map fun u => wcounts conf (bigramClass .categoricalSet starts ends) st a u i).sum
    with hN
  have hN0 : ∀ i, 0 ≤ N i := fun i => mul_nonneg hs.le (List.sum_nonneg (by
    intro x hx
    obtain ⟨u, hu', rfl⟩ := List.mem_map.1 hx
    exact wcounts_nonneg conf _ hL st a u (hu u hu').2 i))
  have hv : RowsValid (rowsOf st.weights) := hst.weights
  have hv' : RowsValid (rowsOf st'.weights) := v.weights
  obtain ⟨w', hw1, hw2⟩ := rows_update hP1 st.weights N l hv hN0 h0 h1
  rw [w] at hw1
  have hw' := Except.ok.inj hw1
  subst hw'
  -- counts
  have hcount : ∀ u ∈ utts, ∀ k j, wcounts conf (bigramClass .categoricalSet starts ends) st a u (k, j) =
      ∑ t : Fin u.frames.1, (∑ p : Fin (u.frames.1 + 1) → Fin S, if p t.castSucc = ends k ∧ p t.succ = starts j then
        pathWeight (st.graph conf) (asLog (scoresOf (orderedSet conf.order inner) st.comps a u.frames)) p else 0) /
        evidence (st.graph conf) (asLog (scoresOf (orderedSet conf.order inner) st.comps a u.frames)) := by
    intro u hm k j
    have ha' := hali u hm
    have hf := (hu u hm).2
    obtain ⟨fr, ali⟩ := u
    cases ha'
    have hf' : Feasible (st.graph conf) fr := hf
    show ∑ t, transPosts (st.graph conf) (asLog (scoresOf (orderedSet conf.order inner) st.comps a fr)) t (ends k) (starts j) = _
    refine Finset.sum_congr rfl fun t _ => ?_
    exact C12_transition_posterior_is_marginal _ _ (evidence_pos_of_feasible _ hf' _) t _ _
  have hNz : ∀ k, ¬ left k → ∀ j, N (k, j) = 0 := by
    intro k hk j
    show scale * (utts.map fun u => wcounts conf (bigramClass .categoricalSet starts ends) st a u (k, j)).sum = 0
    rw [List.sum_eq_zero, mul_zero]
    intro x hx
    obtain ⟨u, hm, rfl⟩ := List.mem_map.1 hx
    rw [hcount u hm]
    refine Finset.sum_eq_zero fun t _ => ?_
    rw [Finset.sum_eq_zero, zero_div]
    intro p _
    by_cases hc : p t.castSucc = ends k ∧ p t.succ = starts j
    · rw [if_pos hc, pathWeight_real]
      rcases (pathPrior_nonneg (st.graph conf) p).eq_or_lt with hz | hz
      · rw [← hz, zero_mul]
      · exact absurd (hleft u hm p t k j hc.1 hc.2 hz).1 hk
    · rw [if_neg hc]
  have hrow : ∀ k, ¬ left k → (rowsOf st'.weights k).post = (rowsOf st.weights k).post := by
    intro k hk
    refine dir_natural_inj _ _ (hw2 k).2.1 (hv k).2 hP1 ?_
    rw [(hw2 k).2.2]
    have : (fun j => N (k, j)) = fun _ => 0 := funext fun j => hNz k hk j
    rw [this, hprior k]
    exact catStats_zero_step hP1 _ _ l (dir_len hP1 (hv k).1) rfl
  -- the same paths
  have hsame := w_same conf (bigramClass .categoricalSet starts ends) V XV hin hL dirSetDiv hst v a utts scale
    (fun u h => (hu u h).1) hfix (by
      intro u hm p i hpos
      rcases cases_at starts ends (p i.castSucc) (p i.succ) with ⟨k, j, h1, h2⟩ | h
      · rw [← h1, ← h2, shift2_at starts ends hU, rows_logW, rows_logW]
        have := (hleft u hm p i k j h1.symm h2.symm hpos).2
        rw [hrow j this, sub_self]
      · exact shift2_other starts ends _ _ _ _ h)
  -- the divergences
  have kl : ∀ c : CParam (List ℝ), ParamValid (DirValid P) c →
      valueOf 0 ((dirFam P).paramKl c) = (dirConj hP1).D c.post c.prior := by
    intro c hc
    rw [(dirConj hP1).paramKl_eq _ hc]
    rfl
  have hD0 : ∀ p, (dirConj hP1).D p p = 0 := by
    intro p
    unfold Conj.D
    rw [vdot_vsub _ _ _ rfl]
    ring
  have hdiv0 : dirSetDiv st.weights = 0 := by
    rw [rows_div]
    refine Finset.sum_eq_zero fun k _ => ?_
    rw [kl _ (hv k), hprior k, hD0]
  obtain ⟨u, hm, p, i, k, j, hk, hj, hpos⟩ := hcross
  have hNpos : 0 < N (k, j) := by
    refine mul_pos hs ?_
    refine lt_of_lt_of_le ?_ (List.single_le_sum (by
      intro x hx
      obtain ⟨u', hm', rfl⟩ := List.mem_map.1 hx
      exact wcounts_nonneg conf _ hL st a u' (hu u' hm').2 (k, j)) _ (List.mem_map_of_mem hm))
    rw [hcount u hm]
    have hev : 0 < evidence (st.graph conf) (asLog (scoresOf (orderedSet conf.order inner) st.comps a u.frames)) := by
      have ha' := hali u hm
      have hf := (hu u hm).2
      obtain ⟨fr, ali⟩ := u
      cases ha'
      exact evidence_pos_of_feasible _ hf _
    refine Finset.sum_pos' (fun t _ => div_nonneg (Finset.sum_nonneg fun q _ => ?_) hev.le) ⟨i, Finset.mem_univ _, div_pos ?_ hev⟩
    · split_ifs
      · exact pathWeight_nonneg _ _ _
      · exact le_rfl
    · refine Finset.sum_pos' (fun q _ => ?_) ⟨p, Finset.mem_univ _, ?_⟩
      · split_ifs
        · exact pathWeight_nonneg _ _ _
        · exact le_rfl
      · rw [if_pos ⟨hk, hj⟩, pathWeight_real]
        exact mul_pos hpos (exp_pos _)
  have hne : (rowsOf st'.weights k).post ≠ (rowsOf st.weights k).prior := by
    intro hc
    have hn := (hw2 k).2.2
    rw [hc, hprior k] at hn
    have l0 : (dirNatural ((rowsOf st.weights k).prior)).length = P := dir_len hP1 (hv k).1
    have lc : (catStats (List.ofFn fun j => N (k, j))).length = P := by
      rw [length_catStats _ (ne_nil_of_length hP1 (by simp)), List.length_ofFn]
    have := congrArg (vdot (List.replicate (P - 1) 0 ++ [1])) hn
    rw [vdot_vadd _ _ _ (by simp [vsmul, vsub, vadd, l0, lc]), vdot_vsmul,
      vdot_vsub _ _ _ (by simp [vadd, l0, lc]), vdot_vadd _ _ _ (by rw [l0, lc]), vdot_last_catStats hP1] at this
    have hz : l * ∑ j, N (k, j) = 0 := by linarith
    have hge : N (k, j) ≤ ∑ j, N (k, j) := Finset.single_le_sum (fun j _ => hN0 (k, j)) (Finset.mem_univ j)
    rcases mul_eq_zero.1 hz with h | h
    · exact h0.ne' h
    · linarith
  have hdiv : 0 < dirSetDiv st'.weights := by
    rw [rows_div]
    refine Finset.sum_pos' (fun m _ => ?_) ⟨k, Finset.mem_univ _, ?_⟩
    · rw [kl _ (hv' m)]
      exact (dirConj hP1).kl_nonneg _ _ (hv' m).2 (hv' m).1
    · rw [kl _ (hv' k)]
      refine lt_of_le_of_ne ((dirConj hP1).kl_nonneg _ _ (hv' k).2 (hv' k).1) fun h => hne ?_
      have hpr : (rowsOf st'.weights k).prior = (rowsOf st.weights k).prior := (hw2 k).1
      rw [← hpr]
      refine dir_kl_zero hP _ _ (hv' k).2 (hv' k).1 ?_
      rw [(dirConj hP1).kl_eq _ _ (hv' k).2 (hv' k).1, ← h]
  linarith

/-! ## C161: unigram phone loops with stick-breaking weights -/

theorem first_aligned (conf : WConf M S) {inner : SetModel X M} {W : WeightModel (Fin P)} (starts : Fin P → Fin S) (a : ℝ)
    (s : WState inner W S) (u : LUtt X M) (hu : u.ali.isSome) (j : Fin P) : wStartProb conf a s u (starts j) = 0 := by
  obtain ⟨fr, ali⟩ := u
  cases ali with
  | none => simp at hu
  | some z => rfl

/-- C161, what is proved of phone loops with stick-breaking weights: a step runs, keeps the parameters valid, the decoding
graph that of the weights and the same utterances possible.  If it is a full step or the order of the sticks stays the same,
the objective decreases by at most the change of the expected log-weights of the units with which the
utterances without alignment start.  The missing part: that it does not decrease, which is false (`C161_decrease`). -/
theorem C161_step_partial [NeZero P] (sort : (Fin P → ℝ) → Equiv.Perm (Fin P)) (hsort : SortLaw sort) (α : ℝ) (hα : 0 < α)
    (conf : WConf M S) (starts ends : Fin P → Fin S) (hU : UnitStates starts ends)
    (inner : SetModel X M) (V : inner.State → Prop) (XV : X → Prop) (hin : Lawful inner V XV) (T : TMat S) (a : ℝ) (ha : 0 ≤ a)
    (utts : List (LUtt X M)) (scale : ℝ) (hs : 0 ≤ scale) (l : ℝ) (h0 : 0 < l) (h1 : l ≤ 1)
    (st : WState inner (sbWeights sort) S) (hst : WValid (unigramClass starts ends) V (CatValid α) T st)
    (hu : ∀ u ∈ utts, (∀ t, XV (u.frames.2 t)) ∧ WFeasible conf st.trans u) :
    ∃ st', wStep conf (unigramClass starts ends) st a utts scale l = .ok st' ∧
      WValid (unigramClass starts ends) V (CatValid α) T st' ∧ (∀ u ∈ utts, WFeasible conf st'.trans u) ∧
      (l = 1 ∨ (catOf st'.weights).ordering = (catOf st.weights).ordering →
        wObjective sticksDiv conf a utts scale st ≤ wObjective sticksDiv conf a utts scale st' +
          scale * (utts.map fun u => ∑ j : Fin P, wStartProb conf a st u (starts j) *
            ((catOf st'.weights).logWeights j - (catOf st.weights).logWeights j)).sum) := by
  have hL := unigram_law starts ends hU
  obtain ⟨st', e, v, _, _, o⟩ := w_step conf (unigramClass starts ends) V XV hin hL rfl (sb_gain sort hsort α hα) T st hst
    a ha utts hu (fun u h => .inr rfl) scale l hs h0 h1
  refine ⟨st', e, v, fun u h => w_feasible conf _ V hL hst v u (hu u h).2, fun hc => ?_⟩
  have o := o hc
  simp only [sub_self, mul_zero, Finset.sum_const_zero, add_zero] at o
  exact o

/-- C161 with a prior over the concentration (the default of `hmm mkphoneloop`), full steps. -/
theorem C161_hyper_step_partial [NeZero P] (sort : (Fin P → ℝ) → Equiv.Perm (Fin P)) (hsort : SortLaw sort) (a0 b0 : ℝ)
    (ha0 : 0 < a0) (hb0 : 0 < b0) (conf : WConf M S) (starts ends : Fin P → Fin S) (hU : UnitStates starts ends)
    (inner : SetModel X M) (V : inner.State → Prop) (XV : X → Prop) (hin : Lawful inner V XV) (T : TMat S) (a : ℝ) (ha : 0 ≤ a)
    (utts : List (LUtt X M)) (scale : ℝ) (hs : 0 ≤ scale) (l : ℝ) (h0 : 0 < l) (h1 : l ≤ 1)
    (st : WState inner (hypWeights sort) S) (hst : WValid (unigramClass starts ends) V (HypOk a0 b0) T st)
    (hu : ∀ u ∈ utts, (∀ t, XV (u.frames.2 t)) ∧ WFeasible conf st.trans u) :
    ∃ st', wStep conf (unigramClass starts ends) st a utts scale l = .ok st' ∧
      WValid (unigramClass starts ends) V (HypOk a0 b0) T st' ∧ (∀ u ∈ utts, WFeasible conf st'.trans u) ∧
      (l = 1 → wObjective (hypDiv a0 b0) conf a utts scale st ≤ wObjective (hypDiv a0 b0) conf a utts scale st' +
          scale * (utts.map fun u => ∑ j : Fin P, wStartProb conf a st u (starts j) *
            ((sticksOf st'.weights).logWeights j - (sticksOf st.weights).logWeights j)).sum) := by
  have hL := unigram_law starts ends hU
  obtain ⟨st', e, v, _, _, o⟩ := w_step conf (unigramClass starts ends) V XV hin hL rfl (hyp_gain sort hsort a0 b0 ha0 hb0) T st hst
    a ha utts hu (fun u h => .inr rfl) scale l hs h0 h1
  refine ⟨st', e, v, fun u h => w_feasible conf _ V hL hst v u (hu u h).2, fun hc => ?_⟩
  have o := o hc
  simp only [sub_self, mul_zero, Finset.sum_const_zero, add_zero] at o
  exact o

/-- C161: any training runs without exception; the decoding graph is always that of the current weights. With full steps
and alignments for all the utterances the objective never decreases. -/
theorem C161_aligned [NeZero P] (sort : (Fin P → ℝ) → Equiv.Perm (Fin P)) (hsort : SortLaw sort) (α : ℝ) (hα : 0 < α)
    (conf : WConf M S) (starts ends : Fin P → Fin S) (hU : UnitStates starts ends)
    (inner : SetModel X M) (V : inner.State → Prop) (XV : X → Prop) (hin : Lawful inner V XV) (T : TMat S) (a : ℝ) (ha : 0 ≤ a)
    (utts : List (LUtt X M)) (scale : ℝ) (hs : 0 ≤ scale) (ls : List ℝ) (hl : ∀ l ∈ ls, 0 < l ∧ l ≤ 1)
    (st : WState inner (sbWeights sort) S) (hst : WValid (unigramClass starts ends) V (CatValid α) T st)
    (hu : ∀ u ∈ utts, (∀ t, XV (u.frames.2 t)) ∧ WFeasible conf st.trans u) :
    ∃ st', wTrain conf (unigramClass starts ends) a utts scale st ls = .ok st' ∧
      WValid (unigramClass starts ends) V (CatValid α) T st' ∧
      ((∀ l ∈ ls, l = 1) → (∀ u ∈ utts, u.ali.isSome) →
        wObjective sticksDiv conf a utts scale st ≤ wObjective sticksDiv conf a utts scale st') := by
  obtain ⟨st', e, v, _, o⟩ := w_train conf (unigramClass starts ends) V XV hin (unigram_law starts ends hU) rfl
    (sb_gain sort hsort α hα) T a ha utts (fun u h => .inr rfl) scale hs ls hl st hst hu
  exact ⟨st', e, v, fun h1 h2 => o (fun l h _ _ => .inl (h1 l h)) (fun u h s j => first_aligned conf starts a s u (h2 u h) j) rfl⟩

/-- C161, the same with a prior over the concentration. -/
theorem C161_hyper_aligned [NeZero P] (sort : (Fin P → ℝ) → Equiv.Perm (Fin P)) (hsort : SortLaw sort) (a0 b0 : ℝ)
    (ha0 : 0 < a0) (hb0 : 0 < b0) (conf : WConf M S) (starts ends : Fin P → Fin S) (hU : UnitStates starts ends)
    (inner : SetModel X M) (V : inner.State → Prop) (XV : X → Prop) (hin : Lawful inner V XV) (T : TMat S) (a : ℝ) (ha : 0 ≤ a)
    (utts : List (LUtt X M)) (scale : ℝ) (hs : 0 ≤ scale) (ls : List ℝ) (hl : ∀ l ∈ ls, 0 < l ∧ l ≤ 1)
    (st : WState inner (hypWeights sort) S) (hst : WValid (unigramClass starts ends) V (HypOk a0 b0) T st)
    (hu : ∀ u ∈ utts, (∀ t, XV (u.frames.2 t)) ∧ WFeasible conf st.trans u) :
    ∃ st', wTrain conf (unigramClass starts ends) a utts scale st ls = .ok st' ∧
      WValid (unigramClass starts ends) V (HypOk a0 b0) T st' ∧
      ((∀ l ∈ ls, l = 1) → (∀ u ∈ utts, u.ali.isSome) →
        wObjective (hypDiv a0 b0) conf a utts scale st ≤ wObjective (hypDiv a0 b0) conf a utts scale st') := by
  obtain ⟨st', e, v, _, o⟩ := w_train conf (unigramClass starts ends) V XV hin (unigram_law starts ends hU) rfl
    (hyp_gain sort hsort a0 b0 ha0 hb0) T a ha utts (fun u h => .inr rfl) scale hs ls hl st hst hu
  exact ⟨st', e, v, fun h1 h2 => o (fun l h _ _ => h1 l h) (fun u h s j => first_aligned conf starts a s u (h2 u h) j) rfl⟩

/-- C161: a full step on utterances which all have alignments puts the sticks back to their prior, although the
transitions are documented as not trained then. -/
theorem C161_aligned_reset [NeZero P] (sort : (Fin P → ℝ) → Equiv.Perm (Fin P)) (hsort : SortLaw sort) (α : ℝ) (hα : 0 < α)
    (conf : WConf M S) (starts ends : Fin P → Fin S) (hU : UnitStates starts ends)
    (inner : SetModel X M) (V : inner.State → Prop) (XV : X → Prop) (hin : Lawful inner V XV) (T : TMat S) (a : ℝ) (ha : 0 ≤ a)
    (utts : List (LUtt X M)) (hali : ∀ u ∈ utts, u.ali.isSome) (scale : ℝ) (hs : 0 ≤ scale)
    (st : WState inner (sbWeights sort) S) (hst : WValid (unigramClass starts ends) V (CatValid α) T st)
    (hu : ∀ u ∈ utts, (∀ t, XV (u.frames.2 t)) ∧ WFeasible conf st.trans u) :
    ∃ st', wStep conf (unigramClass starts ends) st a utts scale 1 = .ok st' ∧
      ∀ k, (catOf st'.weights).post k = (1, α) := by
  have hL := unigram_law starts ends hU
  obtain ⟨st', e, v, _, w, _⟩ := w_step conf (unigramClass starts ends) V XV hin hL rfl (sb_gain sort hsort α hα) T st hst
    a ha utts hu (fun u h => .inr rfl) scale 1 hs one_pos le_rfl
  refine ⟨st', e, fun k => ?_⟩
  have hz : (fun i => scale * (utts.map fun u => wcounts conf (unigramClass starts ends) st a u i).sum) = fun _ => 0 := by
    funext i
    rw [List.sum_eq_zero, mul_zero]
    intro x hx
    obtain ⟨u, hm, rfl⟩ := List.mem_map.1 hx
    have hs' := hali u hm
    obtain ⟨fr, ali⟩ := u
    cases ali with
    | none => simp at hs'
    | some z => rfl
  rw [hz] at w
  have w' : catOf st'.weights = SBCat.update sort (catOf st.weights) (fun _ => 0) 1 := (Except.ok.inj w).symm
  have hp : (catOf st.weights).prior k = (1, α) := hst.weights.2 k
  have hc : countAfter (sort fun _ => 0) (fun _ : Fin P => (0 : ℝ)) k = 0 := Finset.sum_eq_zero fun _ _ => rfl
  rw [w', update_post, hp, hc]
  simp

/-- C161, error branch: an utterance for which the decoding graph has no path stops the training. -/
theorem C161_infeasible {W : WeightModel (Fin P)} (conf : WConf M S) (starts ends : Fin P → Fin S)
    (inner : SetModel X M) (V : inner.State → Prop) (XV : X → Prop) (hin : Lawful inner V XV) (hS : 0 < S)
    (st : WState inner W S) (hv : V st.comps) (a : ℝ) (u : LUtt X M) (hali : u.ali = none) (us : List (LUtt X M))
    (hx : ∀ t, XV (u.frames.2 t)) (hf : ¬ WFeasible conf st.trans u) (scale l : ℝ) (ls : List ℝ) :
    wStep conf (unigramClass starts ends) st a (u :: us) scale l = .error .valueError ∧
      wTrain conf (unigramClass starts ends) a (u :: us) scale st (l :: ls) = .error .valueError :=
  w_infeasible conf _ V XV hin hS st hv a u hali us hx hf scale l ls

theorem bK_pos (p q : ℝ × ℝ) (hp : 0 < p.1 ∧ 0 < p.2) (hq : 0 < q.1 ∧ 0 < q.2) (h : p.1 ≠ q.1) : 0 < bK p q := by
  have v : ∀ p : ℝ × ℝ, 0 < p.1 ∧ 0 < p.2 → DirValid 2 [p.1, p.2] := by
    intro p h
    refine ⟨rfl, ?_⟩
    simp [h.1, h.2]
  refine lt_of_le_of_ne (bK_nonneg p q hp hq) fun hz => h ?_
  have := dir_kl_zero le_rfl _ _ (v p hp) (v q hq) (by rw [bK_eq, ← hz])
  simp only [List.cons.injEq] at this
  exact this.1

/-- C161 fails: when no possible sequence goes from the end of a unit to the start of a unit (every utterance is one unit), the
weights do not change the probability of the utterances; a step which leaves the emissions as they are and starts at
the prior of the weights decreases the objective, because it counts the first unit of each utterance. -/
theorem C161_decrease [NeZero P] (sort : (Fin P → ℝ) → Equiv.Perm (Fin P)) (hsort : SortLaw sort) (α : ℝ) (hα : 0 < α)
    (conf : WConf M S) (starts ends : Fin P → Fin S) (hU : UnitStates starts ends)
    (inner : SetModel X M) (V : inner.State → Prop) (XV : X → Prop) (hin : Lawful inner V XV) (T : TMat S) (a : ℝ) (ha : 0 ≤ a)
    (utts : List (LUtt X M)) (hali : ∀ u ∈ utts, u.ali = none) (scale : ℝ) (hs : 0 < scale) (l : ℝ) (h0 : 0 < l) (h1 : l ≤ 1)
    (st st' : WState inner (sbWeights sort) S) (hst : WValid (unigramClass starts ends) V (CatValid α) T st)
    (hu : ∀ u ∈ utts, (∀ t, XV (u.frames.2 t)) ∧ WFeasible conf st.trans u)
    (hone : ∀ u ∈ utts, ∀ (p : Fin (u.frames.1 + 1) → Fin S) (i : Fin u.frames.1) (k j : Fin P), p i.castSucc = ends k →
      p i.succ = starts j → pathPrior (st.graph conf) p = 0)
    (hstart : ∃ u ∈ utts, ∃ j, 0 < wStartProb conf a st u (starts j))
    (hprior : (catOf st.weights).post = (catOf st.weights).prior)
    (hstep : wStep conf (unigramClass starts ends) st a utts scale l = .ok st') (hfix : st'.comps = st.comps) :
    wObjective sticksDiv conf a utts scale st' < wObjective sticksDiv conf a utts scale st := by
  have hL := unigram_law starts ends hU
  obtain ⟨s1, e, v, _, w, _⟩ := w_step conf (unigramClass starts ends) V XV hin hL rfl (sb_gain sort hsort α hα) T st hst
    a ha utts hu (fun u h => .inr rfl) scale l hs.le h0 h1
  rw [hstep] at e
  cases Except.ok.inj e
  clear e
  set N : Fin P → ℝ := fun i => scale * (utts.map fun u => wcounts conf (unigramClass starts ends) st a u i).sum with hN
  have w' : catOf st'.weights = SBCat.update sort (catOf st.weights) N l := (Except.ok.inj w).symm
  have hv : SticksValid (catOf st.weights) := hst.weights.1
  have hv' : SticksValid (catOf st'.weights) := v.weights.1
  have hsame := w_same conf (unigramClass starts ends) V XV hin hL sticksDiv hst v a utts scale (fun u h => (hu u h).1) hfix (by
    intro u hm p i hpos
    unfold shift
    by_cases he : p i.castSucc ∈ List.ofFn ends
    · rw [if_pos he]
      obtain ⟨k, hk⟩ := (List.mem_ofFn).1 he
      exact Finset.sum_eq_zero fun j _ => if_neg fun hj => hpos.ne' (hone u hm p i k j hk.symm hj.symm)
    · rw [if_neg he])
  have hd : ∀ w : (sbWeights sort).State, sticksDiv w = ∑ k, bK ((catOf w).post k) ((catOf w).prior k) := by
    intro w
    show valueOf 0 (SBCat.kl (catOf w)) = _
    rw [sbcat_kl_eq]
    rfl
  have hdiv0 : sticksDiv st.weights = 0 := by
    rw [hd, hprior]
    exact Finset.sum_eq_zero fun k _ => bK_self _
  obtain ⟨u, hm, j, hj⟩ := hstart
  have hNpos : 0 < N j := by
    refine mul_pos hs ?_
    refine lt_of_lt_of_le ?_ (List.single_le_sum (by
      intro x hx
      obtain ⟨u', hm', rfl⟩ := List.mem_map.1 hx
      exact wcounts_nonneg conf _ hL st a u' (hu u' hm').2 j) _ (List.mem_map_of_mem hm))
    have ha' := hali u hm
    have hf := (hu u hm).2
    have hx := (hu u hm).1
    obtain ⟨fr, ali⟩ := u
    cases ha'
    have hf' : Feasible (st.graph conf) fr := hf
    rw [wStartProb_eq conf V XV hin st hst.comps a fr hx] at hj
    refine lt_of_lt_of_le hj (le_add_of_nonneg_left (List.sum_nonneg ?_))
    intro x hx
    obtain ⟨e, _, rfl⟩ := List.mem_map.1 hx
    exact Finset.sum_nonneg fun t _ => transPosts_nonneg _ _ (evidence_pos_of_feasible _ hf' _) _ _ _
  have hdiv : 0 < sticksDiv st'.weights := by
    rw [hd]
    refine Finset.sum_pos' (fun k _ => bK_nonneg _ _ (hv'.post k) (hv'.prior k)) ⟨j, Finset.mem_univ _, ?_⟩
    refine bK_pos _ _ (hv'.post j) (hv'.prior j) ?_
    rw [w', update_post, hprior]
    show (1 - l) * ((catOf st.weights).prior j).1 + l * (((catOf st.weights).prior j).1 + N j) ≠ ((catOf st.weights).prior j).1
    have := mul_pos h0 hNpos
    intro hc
    linarith
  linarith

/-! ## Two units of two states -/

/-- A graph with one possible path. -/
theorem unique_gam {n : ℕ} (g : CGraph S) (v : Fin (n + 1) → Fin S → ℝ) (p0 : Fin (n + 1) → Fin S)
    (h : ∀ p, p ≠ p0 → pathPrior g p = 0) (h0 : 0 < pathPrior g p0) (t : Fin (n + 1)) (s : Fin S) :
    gam g v t s = if p0 t = s then 1 else 0 := by
  have hw : ∀ p, p ≠ p0 → pathWeight g (asLog v) p = 0 := fun p hp => by rw [pathWeight_real, h p hp, zero_mul]
  have hp : 0 < pathWeight g (asLog v) p0 := by
    rw [pathWeight_real]
    exact mul_pos h0 (exp_pos _)
  have hev : evidence g (asLog v) = pathWeight g (asLog v) p0 :=
    Finset.sum_eq_single p0 (fun p _ hne => hw p hne) fun hn => absurd (Finset.mem_univ _) hn
  unfold gam
  rw [hev, Finset.sum_eq_single p0]
  · split_ifs
    · exact div_self hp.ne'
    · exact zero_div _
  · intro p _ hne
    rw [hw p hne, ite_self]
  · intro hn
    exact absurd (Finset.mem_univ _) hn

/-- Unit A has the states 0 and 1, unit B the states 2 and 3; utterances start with state 0 and end with the state `e`. -/
noncomputable def chainConf (e : Fin 4) : WConf 4 4 where
  init s := if s = 0 then ((0 : ℝ) : LogR) else ⊥
  final s := if s = e then ((0 : ℝ) : LogR) else ⊥
  order s := s

/-- Categorical emissions at the optimum for utterances of `n` equal frames which take the states 0, 1, … in turn. -/
noncomputable def chainComps (n : ℕ) : Fin 4 → CParam (List ℝ) := fun m => ⟨[1, 1], if m.val < n then [2, 1] else [1, 1]⟩

/-- `n + 1` equal frames. -/
def chainUtt (n : ℕ) : LUtt (List ℝ) 4 := ⟨⟨n, fun _ => [1, 0]⟩, none⟩

def chainStarts : Fin 2 → Fin 4 := ![0, 2]

def chainEnds : Fin 2 → Fin 4 := ![1, 3]

theorem chain_units : UnitStates chainStarts chainEnds := by
  refine ⟨by decide, by decide, by decide⟩

theorem chain_comps (n : ℕ) : SetValid (DirValid 2) (chainComps n) := by
  intro m
  refine ⟨⟨rfl, by simp [chainComps]⟩, ?_⟩
  unfold chainComps
  dsimp only
  split_ifs <;> exact ⟨rfl, by simp⟩

theorem chain_lawful : Lawful (familySet (dirFam 2) 4) (SetValid (DirValid 2)) (CountsValid 2) := C87_categoricalset (by norm_num) 4

theorem chain_update (m : Fin 4) (n : ℕ) : (dirFam 2).update (chainComps n m) (if m.val < n then [1, 1] else [0, 0]) 1 =
    .ok (chainComps n m) := by
  have key : ∀ x y : List ℝ, (x = [2, 1] ∧ y = [1, 1]) ∨ (x = [1, 1] ∧ y = [0, 0]) →
      (dirFam 2).update ⟨[1, 1], x⟩ y 1 = .ok ⟨[1, 1], x⟩ := by
    intro x y h
    unfold Family.update
    have h1 : (dirFam 2).natural [1, 1] = .ok [0, 0] := by simp [dirFam, dirNatural]
    have h2 : (dirFam 2).natural x = .ok y := by
      rcases h with ⟨rfl, rfl⟩ | ⟨rfl, rfl⟩
      · show Except.ok (dirNatural _) = _
        simp [dirNatural]
        norm_num
      · exact h1
    rw [h1, h2, ok_bind, ok_bind, if_neg (by rcases h with ⟨rfl, rfl⟩ | ⟨rfl, rfl⟩ <;> simp)]
    have h3 : (dirFam 2).fromNatural (vadd y (vsmul 1 (vsub (vadd [0, 0] y) y))) = .ok x := by
      show dirFromNatural _ = _
      rcases h with ⟨rfl, rfl⟩ | ⟨rfl, rfl⟩ <;> simp [dirFromNatural, vadd, vsmul, vsub] <;> norm_num
    rw [h3]
    rfl
  unfold chainComps
  split_ifs with h
  · exact key _ _ (.inl ⟨rfl, rfl⟩)
  · exact key _ _ (.inr ⟨rfl, rfl⟩)

/-- The step of the emissions leaves them as they are. -/
theorem chain_fix {ι : Type} {W : WeightModel ι} (n : ℕ) (hn : n = 1 ∨ n = 3) (e : Fin 4) (st : WState (familySet (dirFam 2) 4) W 4)
    (hc : st.comps = chainComps (n + 1)) (p0 : Fin (n + 1) → Fin 4) (hp0 : ∀ t, (p0 t).val = t.val)
    (h : ∀ p : Fin (n + 1) → Fin 4, p ≠ p0 → pathPrior (st.graph (chainConf e)) p = 0)
    (h0 : 0 < pathPrior (st.graph (chainConf e)) p0) :
    (familySet (dirFam 2) 4).step st.comps
      ([chainUtt n].map (lrows (toConf (chainConf e)) (familySet (dirFam 2) 4) (toLoop st) 1)).flatten 1 1 = .ok st.comps := by
  refine seqFin_ok _ _ fun m => ?_
  have hr : (([chainUtt n].map (lrows (toConf (chainConf e)) (familySet (dirFam 2) 4) (toLoop st) 1)).flatten.map fun r =>
      (r.2 m, (dirFam 2).stats r.1)) =
      List.ofFn fun t : Fin (n + 1) => ((if t.val = m.val then (1 : ℝ) else 0), [(1 : ℝ), 1]) := by
    rw [List.map_cons, List.map_nil, List.flatten_cons, List.flatten_nil, List.append_nil]
    show (pdfRows (chainConf e).order (List.ofFn fun t : Fin (n + 1) => (([1, 0] : List ℝ), fun s => 1 *
      gam (st.graph (chainConf e)) (scoresOf (orderedSet (chainConf e).order (familySet (dirFam 2) 4)) st.comps 1 (chainUtt n).frames) t s))).map _ = _
    have hg : (fun t : Fin (n + 1) => (([1, 0] : List ℝ), fun s => 1 * gam (st.graph (chainConf e))
        (scoresOf (orderedSet (chainConf e).order (familySet (dirFam 2) 4)) st.comps 1 (chainUtt n).frames) t s)) =
        fun t : Fin (n + 1) => (([1, 0] : List ℝ), fun s : Fin 4 => if p0 t = s then (1 : ℝ) else 0) := by
      funext t
      refine Prod.ext rfl (funext fun s => ?_)
      exact (one_mul _).trans (unique_gam _ _ p0 h h0 t s)
    rw [hg]
    unfold pdfRows
    rw [List.map_ofFn, List.map_ofFn]
    congr 1
    funext t
    refine Prod.ext ?_ ?_
    · show (∑ s : Fin 4, if s = m then (if p0 t = s then (1 : ℝ) else 0) else 0) = _
      rw [Finset.sum_ite_eq' Finset.univ m, if_pos (Finset.mem_univ _)]
      by_cases hh : p0 t = m
      · rw [if_pos hh, if_pos (by rw [← hh, hp0])]
      · rw [if_neg hh, if_neg fun h' => hh (Fin.ext (by rw [hp0, h']))]
    · show catStats [1, 0] = [1, 1]
      simp [catStats]
  rw [hr]
  have hv : vsmul 1 (wsum (dirFam 2).sdim (List.ofFn fun t : Fin (n + 1) => ((if t.val = m.val then (1 : ℝ) else 0), [(1 : ℝ), 1]))) =
      if m.val < n + 1 then [1, 1] else [0, 0] := by
    rcases hn with rfl | rfl <;> fin_cases m <;> simp [vsmul, wsum, vadd, dirFam, List.ofFn_succ]
  rw [hv]
  have hcm : ∀ c : (familySet (dirFam 2) 4).State, c = chainComps (n + 1) → ∀ x l,
      (dirFam 2).update ((c : Fin 4 → CParam (List ℝ)) m) x l = (dirFam 2).update (chainComps (n + 1) m) x l := by
    rintro c rfl x l
    rfl
  refine (hcm _ hc _ _).trans ((chain_update m (n + 1)).trans ?_)
  rw [hc]

/-- Priors of paths of `chainConf`: four frames ending with state 3. -/
theorem chain_four {T : TMat 4} (hT0 : ∀ d, T 0 d = duoTrans 0 d) (hT3 : ∀ s, T s 3 = duoTrans s 3) (h02 : T 0 2 = ⊥)
    (h12 : 0 < lexp (T 1 2)) (h23 : T 2 3 = duoTrans 2 3) :
    (∀ p : Fin (3 + 1) → Fin 4, p ≠ ![0, 1, 2, 3] → pathPrior (⟨(chainConf 3).init, (chainConf 3).final, T⟩ : CGraph 4) p = 0) ∧
      0 < pathPrior (⟨(chainConf 3).init, (chainConf 3).final, T⟩ : CGraph 4) (![0, 1, 2, 3] : Fin (3 + 1) → Fin 4) := by
  have hb : lexp ⊥ = 0 := rfl
  have e : ∀ p : Fin (3 + 1) → Fin 4, pathPrior (⟨(chainConf 3).init, (chainConf 3).final, T⟩ : CGraph 4) p =
      lexp ((chainConf 3).init (p 0)) * (lexp (T (p 0) (p 1)) * lexp (T (p 1) (p 2)) * lexp (T (p 2) (p 3))) *
        lexp ((chainConf 3).final (p 3)) := by
    intro p
    unfold pathPrior
    rw [Fin.prod_univ_three]
    rfl
  constructor
  · intro p hp
    rw [e]
    by_cases h0 : p 0 = 0
    · by_cases h3 : p 3 = 3
      · rw [h0, h3, hT0, hT3]
        have h1 : p 1 = 0 ∨ p 1 = 1 ∨ duoTrans 0 (p 1) = ⊥ := by
          generalize p 1 = x
          fin_cases x <;> simp [duoTrans]
        have h2 : p 2 = 3 ∨ p 2 = 2 ∨ duoTrans (p 2) 3 = ⊥ := by
          generalize p 2 = x
          fin_cases x <;> simp [duoTrans]
        rcases h1 with h1 | h1 | h1
        · rcases h2 with h2 | h2 | h2
          · rw [h1, h2, hT0]; simp [duoTrans, hb]
          · rw [h1, h2, h02]; simp [hb]
          · rw [h2, hb]; ring
        · rcases h2 with h2 | h2 | h2
          · rw [h1, h2, hT3]; simp [duoTrans, hb]
          · refine absurd ?_ hp
            funext i
            fin_cases i <;> simpa
          · rw [h2, hb]; ring
        · rw [h1, hb]; ring
      · have : (chainConf 3).final (p 3) = ⊥ := if_neg h3
        rw [this, hb, mul_zero]
    · have : (chainConf 3).init (p 0) = ⊥ := if_neg h0
      rw [this, hb, zero_mul, zero_mul]
  · rw [e]
    have : ∀ p : Fin (3 + 1) → Fin 4, p = ![0, 1, 2, 3] → p 0 = 0 ∧ p 1 = 1 ∧ p 2 = 2 ∧ p 3 = 3 := by
      rintro p rfl
      exact ⟨rfl, rfl, rfl, rfl⟩
    obtain ⟨a0, a1, a2, a3⟩ := this _ rfl
    rw [a0, a1, a2, a3, hT0, h23]
    have i1 : 0 < lexp ((chainConf 3).init 0) := by simp [chainConf]
    have i2 : 0 < lexp ((chainConf 3).final 3) := by simp [chainConf]
    have i3 : 0 < lexp (duoTrans 0 1) := by simp [duoTrans, exp_pos]
    have i4 : 0 < lexp (duoTrans 2 3) := by simp [duoTrans, exp_pos]
    positivity

/-- Two frames ending with state 1. -/
theorem chain_two {T : TMat 4} (hT0 : ∀ d, T 0 d = duoTrans 0 d) :
    (∀ p : Fin (1 + 1) → Fin 4, p ≠ ![0, 1] → pathPrior (⟨(chainConf 1).init, (chainConf 1).final, T⟩ : CGraph 4) p = 0) ∧
      0 < pathPrior (⟨(chainConf 1).init, (chainConf 1).final, T⟩ : CGraph 4) (![0, 1] : Fin (1 + 1) → Fin 4) := by
  have hb : lexp ⊥ = 0 := rfl
  have e : ∀ p : Fin (1 + 1) → Fin 4, pathPrior (⟨(chainConf 1).init, (chainConf 1).final, T⟩ : CGraph 4) p =
      lexp ((chainConf 1).init (p 0)) * lexp (T (p 0) (p 1)) * lexp ((chainConf 1).final (p 1)) := by
    intro p
    unfold pathPrior
    rw [Fin.prod_univ_one]
    rfl
  constructor
  · intro p hp
    rw [e]
    by_cases h0 : p 0 = 0
    · by_cases h3 : p 1 = 1
      · refine absurd ?_ hp
        funext i
        fin_cases i <;> simpa
      · have : (chainConf 1).final (p 1) = ⊥ := if_neg h3
        rw [this, hb, mul_zero]
    · have : (chainConf 1).init (p 0) = ⊥ := if_neg h0
      rw [this, hb, zero_mul, zero_mul]
  · rw [e]
    have : ∀ p : Fin (1 + 1) → Fin 4, p = ![0, 1] → p 0 = 0 ∧ p 1 = 1 := by
      rintro p rfl
      exact ⟨rfl, rfl⟩
    obtain ⟨a0, a1⟩ := this _ rfl
    rw [a0, a1, hT0]
    have i1 : 0 < lexp ((chainConf 1).init 0) := by simp [chainConf]
    have i2 : 0 < lexp ((chainConf 1).final 1) := by simp [chainConf]
    have i3 : 0 < lexp (duoTrans 0 1) := by simp [duoTrans, exp_pos]
    positivity

theorem unique_feasible {n : ℕ} (g : CGraph 4) (p0 : Fin (n + 1) → Fin 4) (h0 : 0 < pathPrior g p0) :
    Feasible g (chainUtt n).frames := by
  show 0 < evidence g fun (_ : Fin (n + 1)) (_ : Fin 4) => ((0 : ℝ) : LogR)
  rw [evidence_prior]
  exact Finset.sum_pos' (fun p _ => pathPrior_nonneg _ p) ⟨p0, Finset.mem_univ _, h0⟩

/-- Dirichlet weights at their prior. -/
noncomputable def chainRows : WState (familySet (dirFam 2) 4) (dirSetWeights 2) 4 :=
  WState.make (bigramClass .categoricalSet chainStarts chainEnds) duoTrans
    (show (dirSetWeights 2).State from fun _ => ⟨[1 / 2, 1 / 2], [1 / 2, 1 / 2]⟩) (chainComps 4)

theorem chainRows_valid : WValid (bigramClass .categoricalSet chainStarts chainEnds) (SetValid (DirValid 2)) RowsValid duoTrans
    chainRows := by
  have h : DirValid 2 ([1 / 2, 1 / 2] : List ℝ) := ⟨rfl, by simp⟩
  exact ⟨fun _ => ⟨h, h⟩, chain_comps 4, rfl⟩

theorem half_pos_exit : 0 < lexp (llog (1 - lexp (duoTrans 1 1))) := by
  have h : (1 : ℝ) - lexp (duoTrans 1 1) = 1 / 2 := by
    simp [duoTrans]
    rw [exp_neg, exp_log (by norm_num)]
    norm_num
  rw [h, lexp_llog (by norm_num)]
  norm_num

theorem chain_bigram (w : Fin 2 → Fin 2 → ℝ) :
    (∀ p : Fin (3 + 1) → Fin 4, p ≠ ![0, 1, 2, 3] → pathPrior (⟨(chainConf 3).init, (chainConf 3).final,
      bigramRefresh chainStarts chainEnds w duoTrans⟩ : CGraph 4) p = 0) ∧
      0 < pathPrior (⟨(chainConf 3).init, (chainConf 3).final, bigramRefresh chainStarts chainEnds w duoTrans⟩ : CGraph 4)
        (![0, 1, 2, 3] : Fin (3 + 1) → Fin 4) := by
  have h0 : ∀ d, bigramRefresh chainStarts chainEnds w duoTrans 0 d = duoTrans 0 d :=
    fun d => bigram_rest _ _ chain_units w _ 0 d (.inl (by decide))
  have h3 : ∀ s, bigramRefresh chainStarts chainEnds w duoTrans s 3 = duoTrans s 3 :=
    fun s => bigram_rest _ _ chain_units w _ s 3 (.inr (by decide))
  refine chain_four h0 h3 (by rw [h0]; simp [duoTrans]) ?_ (h3 2)
  have := bigram_at chainStarts chainEnds chain_units w duoTrans 0 1
  have e : bigramRefresh chainStarts chainEnds w duoTrans 1 2 = llog (1 - lexp (duoTrans 1 1)) + (w 0 1 : LogR) := this
  rw [e, lexp_add, lexp_coe]
  exact mul_pos half_pos_exit (exp_pos _)

/-- C160 fails, a concrete bigram phone loop with Dirichlet weights: two units of two states, one utterance of four frames
which is unit A then unit B.  A step of the training decreases the objective. -/
theorem C160_rows_decrease_witness : ∃ st', wStep (chainConf 3) (bigramClass .categoricalSet chainStarts chainEnds) chainRows 1
      [chainUtt 3] 1 1 = .ok st' ∧
    wObjective dirSetDiv (chainConf 3) 1 [chainUtt 3] 1 st' < wObjective dirSetDiv (chainConf 3) 1 [chainUtt 3] 1 chainRows := by
  obtain ⟨huniq, hpos⟩ := chain_bigram fun i j => (dirSetWeights 2).logW chainRows.weights (i, j)
  have hu : ∀ u ∈ [chainUtt 3], (∀ t, CountsValid 2 (u.frames.2 t)) ∧ WFeasible (chainConf 3) chainRows.trans u := by
    intro u hm
    rw [List.mem_singleton] at hm
    subst hm
    exact ⟨fun t => ⟨rfl, by simp [chainUtt]⟩, unique_feasible _ _ hpos⟩
  have hali : ∀ u ∈ [chainUtt 3], u.ali = none := by
    intro u hm
    rw [List.mem_singleton] at hm
    subst hm
    rfl
  obtain ⟨st', e, _, hc, _⟩ := w_step (chainConf 3) (bigramClass .categoricalSet chainStarts chainEnds) _ _ chain_lawful
    (bigram_law _ _ _ chain_units) rfl (dirSet_gain (by norm_num)) duoTrans chainRows chainRows_valid 1 zero_le_one [chainUtt 3] hu
    (fun u h => .inl (hali u h)) 1 1 zero_le_one one_pos le_rfl
  refine ⟨st', e, ?_⟩
  rw [chain_fix 3 (.inr rfl) 3 chainRows rfl ![0, 1, 2, 3] (by decide) huniq hpos] at hc
  have hpath : ∀ p : Fin (3 + 1) → Fin 4, 0 < pathPrior (chainRows.graph (chainConf 3)) p → p = ![0, 1, 2, 3] := by
    intro p hp
    by_contra hne
    exact hp.ne' (huniq p hne)
  refine C160_rows_decrease le_rfl (chainConf 3) chainStarts chainEnds chain_units _ _ _ chain_lawful duoTrans 1 zero_le_one
    [chainUtt 3] hali 1 one_pos 1 one_pos le_rfl chainRows st' chainRows_valid hu (fun k => k = 0) ?_ ?_ (fun _ => rfl) e
    (Except.ok.inj hc).symm
  · intro u hm p i k j hk hj hp
    rw [List.mem_singleton] at hm
    subst hm
    cases hpath p hp
    change Fin 3 at i
    revert hk hj
    revert i k j
    decide
  · exact ⟨chainUtt 3, by simp, (![0, 1, 2, 3] : Fin (3 + 1) → Fin 4), (1 : Fin 3), 0, 1, rfl, rfl, hpos⟩

/-- Stick-breaking weights at their prior. -/
noncomputable def chainSticks (sort : (Fin 2 → ℝ) → Equiv.Perm (Fin 2)) : WState (familySet (dirFam 2) 4) (sbWeights sort) 4 :=
  WState.make (unigramClass chainStarts chainEnds) duoTrans (show (sbWeights sort).State from SBCat.create 2 1) (chainComps 2)

theorem chainSticks_valid (sort : (Fin 2 → ℝ) → Equiv.Perm (Fin 2)) :
    WValid (unigramClass chainStarts chainEnds) (SetValid (DirValid 2)) (CatValid 1) duoTrans (chainSticks sort) :=
  ⟨⟨⟨fun _ => ⟨one_pos, one_pos⟩, fun _ => ⟨one_pos, one_pos⟩⟩, fun _ => rfl⟩, chain_comps 2, rfl⟩

theorem chain_unigram (w : Fin 2 → ℝ) :
    (∀ p : Fin (1 + 1) → Fin 4, p ≠ ![0, 1] → pathPrior (⟨(chainConf 1).init, (chainConf 1).final,
      refresh chainStarts (List.ofFn chainEnds) w duoTrans⟩ : CGraph 4) p = 0) ∧
      0 < pathPrior (⟨(chainConf 1).init, (chainConf 1).final, refresh chainStarts (List.ofFn chainEnds) w duoTrans⟩ : CGraph 4)
        (![0, 1] : Fin (1 + 1) → Fin 4) :=
  chain_two fun d => refresh_other chainStarts chain_units.startsInj _ _ _ 0 d (.inl (by decide))

/-- C161 fails, a concrete phone loop: two units of two states, one utterance of two frames.  A full step of the training
decreases the objective. -/
theorem C161_decrease_witness (sort : (Fin 2 → ℝ) → Equiv.Perm (Fin 2)) (hsort : SortLaw sort) :
    ∃ st', wStep (chainConf 1) (unigramClass chainStarts chainEnds) (chainSticks sort) 1 [chainUtt 1] 1 1 = .ok st' ∧
    wObjective sticksDiv (chainConf 1) 1 [chainUtt 1] 1 st' <
      wObjective sticksDiv (chainConf 1) 1 [chainUtt 1] 1 (chainSticks sort) := by
  obtain ⟨huniq, hpos⟩ := chain_unigram ((sbWeights sort).logW (chainSticks sort).weights)
  have hu : ∀ u ∈ [chainUtt 1], (∀ t, CountsValid 2 (u.frames.2 t)) ∧ WFeasible (chainConf 1) (chainSticks sort).trans u := by
    intro u hm
    rw [List.mem_singleton] at hm
    subst hm
    exact ⟨fun t => ⟨rfl, by simp [chainUtt]⟩, unique_feasible _ _ hpos⟩
  have hali : ∀ u ∈ [chainUtt 1], u.ali = none := by
    intro u hm
    rw [List.mem_singleton] at hm
    subst hm
    rfl
  obtain ⟨st', e, _, hc, _⟩ := w_step (chainConf 1) (unigramClass chainStarts chainEnds) _ _ chain_lawful
    (unigram_law _ _ chain_units) rfl (sb_gain sort hsort 1 one_pos) duoTrans _ (chainSticks_valid sort) 1 zero_le_one [chainUtt 1] hu
    (fun u h => .inl (hali u h)) 1 1 zero_le_one one_pos le_rfl
  refine ⟨st', e, ?_⟩
  rw [chain_fix 1 (.inl rfl) 1 (chainSticks sort) rfl ![0, 1] (by decide) huniq hpos] at hc
  refine C161_decrease sort hsort 1 one_pos (chainConf 1) chainStarts chainEnds chain_units _ _ _ chain_lawful duoTrans 1 zero_le_one
    [chainUtt 1] hali 1 one_pos 1 one_pos le_rfl _ st' (chainSticks_valid sort) hu ?_ ?_ rfl e
    (Except.ok.inj hc).symm
  · intro u hm p i k j hk hj
    rw [List.mem_singleton] at hm
    subst hm
    refine huniq p fun hp => ?_
    subst hp
    change Fin 1 at i
    revert hk hj
    revert i k j
    decide
  · refine ⟨chainUtt 1, by simp, 0, ?_⟩
    have h1 := wStartProb_eq (chainConf 1) _ _ chain_lawful (chainSticks sort) (chain_comps 2) 1 (chainUtt 1).frames
      (hu _ (by simp)).1
    have h2 := unique_gam (n := 1) _ (scoresOf (orderedSet (chainConf 1).order (familySet (dirFam 2) 4)) (chainComps 2) 1
      (chainUtt 1).frames) ![0, 1] huniq hpos 0 (chainStarts 0)
    rw [if_pos (show (![0, 1] : Fin 2 → Fin 4) 0 = chainStarts 0 from rfl)] at h2
    refine lt_of_lt_of_eq one_pos ?_
    exact h2.symm.trans (congrFun h1 (chainStarts 0)).symm

/-! ## The hypotheses are satisfiable -/

/-- A sort. -/
noncomputable def demoSort : (Fin 2 → ℝ) → Equiv.Perm (Fin 2) := fun n => Tuple.sort fun k => -n k

theorem demoSort_law : SortLaw demoSort := fun n i j h => by
  have := Tuple.monotone_sort (fun k => -n k) h
  show n (Tuple.sort (fun k => -n k) j) ≤ n (Tuple.sort (fun k => -n k) i)
  simpa using this

/-- A bigram loop with stick-breaking weights. -/
noncomputable def chainSet : WState (familySet (dirFam 2) 4) (sbSetWeights (Equiv.swap (0 : Fin 2) 1)) 4 :=
  WState.make (bigramClass .sbCategoricalSet chainStarts chainEnds) duoTrans
    (show (sbSetWeights (Equiv.swap (0 : Fin 2) 1)).State from ⟨fun _ => (1 / 2, 1 / 4), fun _ => (3, 2)⟩) (chainComps 2)

theorem chainSet_valid : WValid (bigramClass .sbCategoricalSet chainStarts chainEnds) (SetValid (DirValid 2)) SetSticksValid duoTrans
    chainSet := by
  have h : SetSticksValid (P := 2) ⟨fun _ => (1 / 2, 1 / 4), fun _ => (3, 2)⟩ :=
    fun _ => ⟨⟨by norm_num, by norm_num⟩, by norm_num, by norm_num⟩
  exact ⟨h, chain_comps 2, rfl⟩

theorem chainSet_utts : ∀ u ∈ [chainUtt 3, chainUtt 3], (∀ t, CountsValid 2 (u.frames.2 t)) ∧ WFeasible (chainConf 3) chainSet.trans u := by
  obtain ⟨_, hpos⟩ := chain_bigram fun i j => (sbSetWeights (Equiv.swap (0 : Fin 2) 1)).logW chainSet.weights (i, j)
  intro u hm
  have : u = chainUtt 3 := by simpa using hm
  subst this
  exact ⟨fun t => ⟨rfl, by simp [chainUtt]⟩, unique_feasible _ _ hpos⟩

example : ∃ st', wTrain (chainConf 3) (bigramClass .sbCategoricalSet chainStarts chainEnds) (1 / 2) [chainUtt 3, chainUtt 3] 10
      chainSet [1, 1 / 3, 1 / 2] = .ok st' ∧
    wObjective sbSetDiv (chainConf 3) (1 / 2) [chainUtt 3, chainUtt 3] 10 chainSet ≤
      wObjective sbSetDiv (chainConf 3) (1 / 2) [chainUtt 3, chainUtt 3] 10 st' := by
  obtain ⟨st', e, _, _, o⟩ := C160_sticks (chainConf 3) chainStarts chainEnds chain_units (Equiv.swap (0 : Fin 2) 1) _ _ _
    chain_lawful duoTrans (1 / 2) (by norm_num) [chainUtt 3, chainUtt 3] (by simp [chainUtt]) 10 (by norm_num) [1, 1 / 3, 1 / 2]
    (by simp; norm_num) chainSet chainSet_valid chainSet_utts
  exact ⟨st', e, o⟩

example : ∃ st', wStep (chainConf 3) (bigramClass .categoricalSet chainStarts chainEnds) chainRows (1 / 2) [chainUtt 3] 10 (1 / 3) =
    .ok st' := by
  obtain ⟨_, hpos⟩ := chain_bigram fun i j => (dirSetWeights 2).logW chainRows.weights (i, j)
  obtain ⟨st', e, _⟩ := C160_rows_partial (by norm_num) (chainConf 3) chainStarts chainEnds chain_units _ _ _ chain_lawful duoTrans
    (1 / 2) (by norm_num) [chainUtt 3] (by simp [chainUtt]) 10 (by norm_num) (1 / 3) (by norm_num) (by norm_num) chainRows
    chainRows_valid (by
      intro u hm
      rw [List.mem_singleton] at hm
      subst hm
      exact ⟨fun t => ⟨rfl, by simp [chainUtt]⟩, unique_feasible _ _ hpos⟩)
  exact ⟨st', e⟩

example : wStep (chainConf 3) (bigramClass .sbCategoricalSet chainStarts chainEnds) chainSet 1
    [chainUtt 3, ⟨(chainUtt 3).frames, some ⟨2, coinGraph, ![0, 3]⟩⟩] 1 1 = .error .notImplemented := by
  refine C160_aligned .sbCategoricalSet (chainConf 3) chainStarts chainEnds _ _ _ chain_lawful chainSet (chain_comps 2) 1 _ ?_
    ⟨⟨(chainUtt 3).frames, some ⟨2, coinGraph, ![0, 3]⟩⟩, by simp, by simp⟩ 1 1
  intro u hm
  simp only [List.mem_cons, List.not_mem_nil, or_false] at hm
  rcases hm with rfl | rfl
  · exact chainSet_utts _ (by simp)
  · exact ⟨fun t => ⟨rfl, by simp [chainUtt]⟩, coin_feasible _⟩

theorem chain_short (T : TMat 4) : ¬ Feasible (⟨(chainConf 3).init, (chainConf 3).final, T⟩ : CGraph 4) (chainUtt 0).frames := by
  intro h
  have h' : 0 < evidence (⟨(chainConf 3).init, (chainConf 3).final, T⟩ : CGraph 4) fun (_ : Fin (0 + 1)) (_ : Fin 4) =>
    ((0 : ℝ) : LogR) := h
  rw [evidence_prior] at h'
  refine absurd h' (not_lt.2 (Finset.sum_nonpos fun p _ => ?_))
  have hb : lexp ⊥ = 0 := rfl
  unfold pathPrior
  dsimp only
  by_cases h0 : p 0 = 0
  · have : (chainConf 3).final (p (Fin.last 0)) = ⊥ := if_neg (by show ¬ p 0 = 3; rw [h0]; decide)
    rw [this, hb, mul_zero]
  · have : (chainConf 3).init (p 0) = ⊥ := if_neg h0
    rw [this, hb]
    simp

/-- One frame is too short. -/
example : wStep (chainConf 3) (bigramClass .sbCategoricalSet chainStarts chainEnds) chainSet 1 [chainUtt 0, chainUtt 3] 1 1 =
    .error .valueError :=
  (C160_infeasible .sbCategoricalSet (chainConf 3) chainStarts chainEnds _ _ _ chain_lawful (by norm_num) chainSet (chain_comps 2) 1
    (chainUtt 0) rfl _ (fun t => ⟨rfl, by simp [chainUtt]⟩) (chain_short _) 1 1 []).1

example : wStep (chainConf 3) (unigramClass chainStarts chainEnds) (chainSticks demoSort) 1 [chainUtt 0] 1 1 = .error .valueError :=
  (C161_infeasible (chainConf 3) chainStarts chainEnds _ _ _ chain_lawful (by norm_num) (chainSticks demoSort) (chain_comps 2) 1
    (chainUtt 0) rfl _ (fun t => ⟨rfl, by simp [chainUtt]⟩) (chain_short _) 1 1 []).1

/-- An utterance with an alignment. -/
noncomputable def chainAligned : LUtt (List ℝ) 4 := ⟨(chainUtt 1).frames, some ⟨2, coinGraph, ![0, 3]⟩⟩

theorem chain_utts (w : Fin 2 → ℝ) : ∀ u ∈ [chainUtt 1, chainAligned], (∀ t, CountsValid 2 (u.frames.2 t)) ∧
    WFeasible (chainConf 1) (refresh chainStarts (List.ofFn chainEnds) w duoTrans) u := by
  intro u hm
  simp only [List.mem_cons, List.not_mem_nil, or_false] at hm
  rcases hm with rfl | rfl
  · exact ⟨fun t => ⟨rfl, by simp [chainUtt]⟩, unique_feasible _ _ (chain_unigram w).2⟩
  · exact ⟨fun t => ⟨rfl, by simp [chainUtt, chainAligned]⟩, coin_feasible _⟩

example : ∃ st', wStep (chainConf 1) (unigramClass chainStarts chainEnds) (chainSticks demoSort) 1 [chainUtt 1, chainAligned] 3
    (1 / 2) = .ok st' := by
  obtain ⟨st', e, _⟩ := C161_step_partial demoSort demoSort_law 1 one_pos (chainConf 1) chainStarts chainEnds chain_units _ _ _
    chain_lawful duoTrans 1 zero_le_one [chainUtt 1, chainAligned] 3 (by norm_num) (1 / 2) (by norm_num) (by norm_num)
    (chainSticks demoSort) (chainSticks_valid demoSort) (chain_utts _)
  exact ⟨st', e⟩

example : ∃ st', wTrain (chainConf 1) (unigramClass chainStarts chainEnds) 1 [chainAligned] 3 (chainSticks demoSort) [1, 1] = .ok st' ∧
    wObjective sticksDiv (chainConf 1) 1 [chainAligned] 3 (chainSticks demoSort) ≤
      wObjective sticksDiv (chainConf 1) 1 [chainAligned] 3 st' := by
  obtain ⟨st', e, _, o⟩ := C161_aligned demoSort demoSort_law 1 one_pos (chainConf 1) chainStarts chainEnds chain_units _ _ _
    chain_lawful duoTrans 1 zero_le_one [chainAligned] 3 (by norm_num) [1, 1] (by simp)
    (chainSticks demoSort) (chainSticks_valid demoSort) fun u h => chain_utts _ u (by simp at h ⊢; exact .inr h)
  exact ⟨st', e, o (by simp) (by simp [chainAligned])⟩

example : ∃ st', wStep (chainConf 1) (unigramClass chainStarts chainEnds) (chainSticks demoSort) 1 [chainAligned] 3 1 = .ok st' ∧
    ∀ k, (catOf st'.weights).post k = (1, 1) :=
  C161_aligned_reset demoSort demoSort_law 1 one_pos (chainConf 1) chainStarts chainEnds chain_units _ _ _
    chain_lawful duoTrans 1 zero_le_one [chainAligned] (by simp [chainAligned]) 3 (by norm_num)
    (chainSticks demoSort) (chainSticks_valid demoSort) fun u h => chain_utts _ u (by simp at h ⊢; exact .inr h)

/-- A loop with a prior over the concentration. -/
noncomputable def chainHyper : WState (familySet (dirFam 2) 4) (hypWeights demoSort) 4 :=
  WState.make (unigramClass chainStarts chainEnds) duoTrans
    (show (hypWeights demoSort).State from ⟨fun _ => (1, 2), fun _ => (1, 2), 1, ⟨[4], [2]⟩, ⟨[4], [2]⟩⟩) (chainComps 2)

theorem chainHyper_valid : WValid (unigramClass chainStarts chainEnds) (SetValid (DirValid 2)) (HypOk 4 2) duoTrans chainHyper := by
  have h : HypOk 4 2 (⟨fun _ => (1, 2), fun _ => (1, 2), 1, ⟨[4], [2]⟩, ⟨[4], [2]⟩⟩ : SBState 2) :=
    ⟨4, 2, ⟨by norm_num, by norm_num⟩, rfl, rfl, fun _ => by norm_num, fun _ => ⟨by norm_num, by norm_num⟩⟩
  exact ⟨h, chain_comps 2, rfl⟩

example : ∃ st', wStep (chainConf 1) (unigramClass chainStarts chainEnds) chainHyper 1 [chainUtt 1, chainAligned] 3 1 = .ok st' := by
  obtain ⟨st', e, _⟩ := C161_hyper_step_partial demoSort demoSort_law 4 2 (by norm_num) (by norm_num) (chainConf 1) chainStarts
    chainEnds chain_units _ _ _ chain_lawful duoTrans 1 zero_le_one [chainUtt 1, chainAligned] 3 (by norm_num) 1 one_pos le_rfl
    chainHyper chainHyper_valid (chain_utts _)
  exact ⟨st', e⟩

example : ∃ st', wTrain (chainConf 1) (unigramClass chainStarts chainEnds) 1 [chainAligned] 3 chainHyper [1, 1] = .ok st' ∧
    wObjective (hypDiv 4 2) (chainConf 1) 1 [chainAligned] 3 chainHyper ≤
      wObjective (hypDiv 4 2) (chainConf 1) 1 [chainAligned] 3 st' := by
  obtain ⟨st', e, _, o⟩ := C161_hyper_aligned demoSort demoSort_law 4 2 (by norm_num) (by norm_num) (chainConf 1) chainStarts
    chainEnds chain_units _ _ _ chain_lawful duoTrans 1 zero_le_one [chainAligned] 3 (by norm_num) [1, 1] (by simp)
    chainHyper chainHyper_valid fun u h => chain_utts _ u (by simp at h ⊢; exact .inr h)
  exact ⟨st', e, o (by simp) (by simp [chainAligned])⟩

end Verif.Props
