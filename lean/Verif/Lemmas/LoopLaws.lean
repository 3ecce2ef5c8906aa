import Verif.Lemmas.LoopWeights
import Verif.Props.LoopVB
import Verif.Props.MkLoop

/-!
# The two classes of phone loops and the four models of weights satisfy the laws of `Lemmas/LoopWeights`
-/

namespace Verif.VB

open Real Verif.Dists Verif.DistSpec Verif.Spec Verif.PhoneLoop Verif.MkLoop Verif.Props

variable {X : Type} {M S P : ℕ}

/-! ## Classes of phone loops -/

theorem unigram_law (starts ends : Fin P → Fin S) (hU : UnitStates starts ends) :
    InstallLaw (unigramClass starts ends) (shift starts (List.ofFn ends)) (fun r j => r (starts j)) := by
  have hd : ∀ e ∈ List.ofFn ends, ∀ j, starts j ≠ e := by
    intro e he j
    rw [List.mem_ofFn] at he
    obtain ⟨i, rfl⟩ := he
    exact hU.disjoint i j
  refine ⟨fun w w' T => C19_history starts hU.startsInj (List.ofFn ends) hd T [w] w',
    fun w w' T i j => refresh_shift starts hU.startsInj _ hd w w' T i j, fun n r x w w' => ?_, fun n r x hr hx i => ?_⟩
  · rw [sum_shift starts _ (List.nodup_ofFn.2 hU.endsInj), ← Finset.sum_add_distrib]
    refine Finset.sum_congr rfl fun j _ => ?_
    show phoneCounts starts (List.ofFn ends) r x j * _ = _
    unfold phoneCounts
    ring
  · refine add_nonneg (List.sum_nonneg ?_) (hr _)
    intro v hv
    obtain ⟨e, _, rfl⟩ := List.mem_map.1 hv
    exact Finset.sum_nonneg fun t _ => hx t _ _

/-- How the logarithm of a transition changes with the weights of a bigram loop. -/
noncomputable def shift2 (starts ends : Fin P → Fin S) (w w' : Fin P × Fin P → ℝ) (e s : Fin S) : ℝ :=
  ∑ i, ∑ j, if ends i = e ∧ starts j = s then w' (i, j) - w (i, j) else 0

theorem shift2_at (starts ends : Fin P → Fin S) (hU : UnitStates starts ends) (w w' : Fin P × Fin P → ℝ) (i j : Fin P) :
    shift2 starts ends w w' (ends i) (starts j) = w' (i, j) - w (i, j) := by
  unfold shift2
  rw [Finset.sum_eq_single i, Finset.sum_eq_single j]
  · simp
  · intro k _ hk; exact if_neg fun h => hk (hU.startsInj h.2)
  · intro h; exact absurd (Finset.mem_univ _) h
  · intro k _ hk; exact Finset.sum_eq_zero fun j _ => if_neg fun h => hk (hU.endsInj h.1)
  · intro h; exact absurd (Finset.mem_univ _) h

theorem shift2_other (starts ends : Fin P → Fin S) (w w' : Fin P × Fin P → ℝ) (e s : Fin S)
    (h : (∀ i, ends i ≠ e) ∨ ∀ j, starts j ≠ s) : shift2 starts ends w w' e s = 0 := by
  unfold shift2
  refine Finset.sum_eq_zero fun i _ => Finset.sum_eq_zero fun j _ => if_neg fun hh => ?_
  rcases h with h | h
  · exact h i hh.1
  · exact h j hh.2

theorem bigram_at (starts ends : Fin P → Fin S) (hU : UnitStates starts ends) (w : Fin P → Fin P → ℝ) (T : TMat S) (i j : Fin P) :
    bigramRefresh starts ends w T (ends i) (starts j) = llog (1 - lexp (T (ends i) (ends i))) + (w i j : LogR) :=
  bigram_start starts ends hU.startsInj hU.endsInj hU.disjoint w _ T i j (List.mem_finRange i)

theorem bigram_rest (starts ends : Fin P → Fin S) (hU : UnitStates starts ends) (w : Fin P → Fin P → ℝ) (T : TMat S) (e s : Fin S)
    (h : (∀ i, ends i ≠ e) ∨ ∀ j, starts j ≠ s) : bigramRefresh starts ends w T e s = T e s :=
  bigram_other starts ends hU.startsInj w _ T e s (h.imp_left fun h i _ => h i)

theorem cases_at (starts ends : Fin P → Fin S) (e s : Fin S) :
    (∃ i j, ends i = e ∧ starts j = s) ∨ ((∀ i, ends i ≠ e) ∨ ∀ j, starts j ≠ s) := by
  by_cases h1 : ∃ i, ends i = e
  · by_cases h2 : ∃ j, starts j = s
    · obtain ⟨i, hi⟩ := h1
      obtain ⟨j, hj⟩ := h2
      exact .inl ⟨i, j, hi, hj⟩
    · exact .inr (.inr fun j hj => h2 ⟨j, hj⟩)
  · exact .inr (.inl fun i hi => h1 ⟨i, hi⟩)

theorem bigram_law (kind : CatSetKind) (starts ends : Fin P → Fin S) (hU : UnitStates starts ends) :
    InstallLaw (bigramClass kind starts ends) (shift2 starts ends) (fun _ _ => 0) := by
  refine ⟨fun w w' T => ?_, fun w w' T e s => ?_, fun n r x w w' => ?_, fun n r x hr hx i => ?_⟩
  · show bigramRefresh starts ends (fun i j => w' (i, j)) (bigramRefresh starts ends (fun i j => w (i, j)) T) =
      bigramRefresh starts ends (fun i j => w' (i, j)) T
    funext e s
    rcases cases_at starts ends e s with ⟨i, j, rfl, rfl⟩ | h
    · rw [bigram_at starts ends hU, bigram_at starts ends hU,
        bigram_rest starts ends hU _ T _ _ (.inr fun j => hU.disjoint i j)]
    · rw [bigram_rest starts ends hU _ _ e s h, bigram_rest starts ends hU _ _ e s h, bigram_rest starts ends hU _ _ e s h]
  · show lexp (bigramRefresh starts ends (fun i j => w' (i, j)) (bigramRefresh starts ends (fun i j => w (i, j)) T) e s) =
      lexp (bigramRefresh starts ends (fun i j => w (i, j)) T e s) * _
    rcases cases_at starts ends e s with ⟨i, j, rfl, rfl⟩ | h
    · rw [bigram_at starts ends hU, bigram_at starts ends hU,
        bigram_rest starts ends hU _ T _ _ (.inr fun j => hU.disjoint i j), shift2_at starts ends hU,
        lexp_add, lexp_add, lexp_coe, lexp_coe, mul_assoc, ← exp_add]
      congr 2
      ring
    · rw [bigram_rest starts ends hU _ _ e s h, shift2_other starts ends w w' e s h, exp_zero, mul_one]
  · simp only [zero_mul, Finset.sum_const_zero, add_zero]
    rw [Fintype.sum_prod_type]
    show ∑ i, ∑ j, (∑ t, x t (ends i) (starts j)) * _ = _
    unfold shift2
    simp only [Finset.sum_mul, Finset.mul_sum]
    have e : ∀ t : Fin n, ∑ s, ∑ d, ∑ i, ∑ j, x t s d * (if ends i = s ∧ starts j = d then w' (i, j) - w (i, j) else 0) =
        ∑ i, ∑ j, x t (ends i) (starts j) * (w' (i, j) - w (i, j)) := by
      intro t
      have e1 : ∀ s, ∑ d, ∑ i, ∑ j, x t s d * (if ends i = s ∧ starts j = d then w' (i, j) - w (i, j) else 0) =
          ∑ i, if ends i = s then ∑ j, x t s (starts j) * (w' (i, j) - w (i, j)) else 0 := by
        intro s
        rw [Finset.sum_comm]
        refine Finset.sum_congr rfl fun i _ => ?_
        by_cases hi : ends i = s
        · rw [if_pos hi, Finset.sum_comm]
          refine Finset.sum_congr rfl fun j _ => ?_
          rw [Finset.sum_eq_single (starts j)]
          · rw [if_pos ⟨hi, rfl⟩]
          · intro d _ hd; rw [if_neg fun h => hd h.2.symm, mul_zero]
          · intro h; exact absurd (Finset.mem_univ _) h
        · rw [if_neg hi]
          exact Finset.sum_eq_zero fun d _ => Finset.sum_eq_zero fun j _ => by rw [if_neg fun h => hi h.1, mul_zero]
      rw [Finset.sum_congr rfl fun s _ => e1 s, Finset.sum_comm]
      refine Finset.sum_congr rfl fun i _ => ?_
      rw [Finset.sum_eq_single (ends i)]
      · rw [if_pos rfl]
      · intro s _ hs; rw [if_neg hs.symm]
      · intro h; exact absurd (Finset.mem_univ _) h
    rw [Finset.sum_congr rfl fun t _ => e t]
    rw [Finset.sum_comm (s := (Finset.univ : Finset (Fin n)))]
    refine Finset.sum_congr rfl fun i _ => ?_
    rw [Finset.sum_comm]
  · show 0 ≤ ∑ t, x t (ends i.1) (starts i.2)
    exact Finset.sum_nonneg fun t _ => hx t _ _

/-! ## Models of weights -/

/-- The condition for stick-breaking weights: a full update, or the order is kept. -/
def SameOrderOrFull (s s' : SBCat P) (l : ℝ) : Prop := l = 1 ∨ s'.ordering = s.ordering

theorem sb_gain_cat [NeZero P] (sort : (Fin P → ℝ) → Equiv.Perm (Fin P)) (hsort : SortLaw sort) (α : ℝ) (hα : 0 < α)
    (s : SBCat P) (hv : SticksValid s) (hp : StickPrior α s) (n : Fin P → ℝ) (hn : ∀ i, 0 ≤ n i) (l : ℝ) (h0 : 0 < l) (h1 : l ≤ 1)
    (hc : SameOrderOrFull s (SBCat.update sort s n l) l) : sticksDiv (SBCat.update sort s n l) - sticksDiv s ≤
      ∑ i, n i * ((SBCat.update sort s n l).logWeights i - s.logWeights i) := by
  have key := sticks_gain sort s hv n hn l h0 h1 (by
    rcases hc with h | h
    · exact .inr ⟨h, hsort n, α, hα, hp⟩
    · exact .inl h)
  have e1 := sF_eq s hv n
  have e2 := sF_eq (SBCat.update sort s n l) (update_valid sort s hv n hn l h0 h1) n
  have e2' : sF (SBCat.update sort s n l).prior n (SBCat.update sort s n l).ordering (SBCat.update sort s n l).post =
      sF s.prior n (sort n) (SBCat.update sort s n l).post := rfl
  rw [e2'] at e2
  rw [sbExpLlh_logWeights] at e1 e2
  unfold sticksDiv
  rw [sbcat_kl_eq, sbcat_kl_eq]
  show (∑ k, bK _ _) - (∑ k, bK _ _) ≤ _
  simp only [mul_sub, Finset.sum_sub_distrib]
  linarith

theorem sb_gain [NeZero P] (sort : (Fin P → ℝ) → Equiv.Perm (Fin P)) (hsort : SortLaw sort) (α : ℝ) (hα : 0 < α) :
    GainLaw (sbWeights sort) (CatValid α) sticksDiv (sbWeights sort).logW SameOrderOrFull :=
  fun s n l hv hn h0 h1 => ⟨SBCat.update sort s n l, rfl, ⟨update_valid sort s hv.1 n hn l h0 h1, hv.2⟩,
    fun hc => sb_gain_cat sort hsort α hα s hv.1 hv.2 n hn l h0 h1 hc⟩

theorem hyp_gain_state [NeZero P] (sort : (Fin P → ℝ) → Equiv.Perm (Fin P)) (hsort : SortLaw sort) (a0 b0 : ℝ) (ha0 : 0 < a0)
    (hb0 : 0 < b0) (s : SBState P) (n : Fin P → ℝ) (l : ℝ) (hv : HypOk a0 b0 s) (hn : ∀ i, 0 ≤ n i) (h0 : 0 < l) (h1 : l ≤ 1) :
    ∃ s', sbStep s (sort n) n l = .ok s' ∧ HypOk a0 b0 s' ∧ (l = 1 → hypDiv a0 b0 s' - hypDiv a0 b0 s ≤
      ∑ i, n i * ((sticksOf s').logWeights i - (sticksOf s).logWeights i)) := by
  obtain ⟨a, b, hv⟩ := hv
  have hsc : batchScale [n].length (-1) = .ok 1 := by
    unfold batchScale
    norm_num
  have hn' : (fun k => (1 : ℝ) * ([n].map fun x => x k).sum) = n := by
    funext k
    simp
  have hd : ∀ x ∈ [n], ∀ k, 0 ≤ x k := by
    intro x hx k
    rw [List.mem_singleton.1 hx]
    exact hn k
  have hstep : ∀ l, hypStep sort s [n] (-1) l = sbStep s (sort n) n l := by
    intro l
    unfold hypStep
    rw [hsc, ok_bind, hn']
  obtain ⟨s', e, _, _, v⟩ := hyp_step sort ha0 hb0 s hv [n] hd (-1) 1 hsc one_pos l h0 h1
  refine ⟨s', (hstep l).symm.trans e, ⟨_, _, v⟩, fun hl => ?_⟩
  subst hl
  obtain ⟨s2, a', b', sc, e2, v2, hs2, hle, _⟩ := C159_joint_step sort hsort ha0 hb0 s hv [n] hd (by simp) (-1)
  rw [e] at e2
  have := Except.ok.inj e2
  subst this
  rw [hsc] at hs2
  have := Except.ok.inj hs2
  subst this
  have d1 : hypDiv a0 b0 s = (∑ k, stickDivergence a b (s.sbPost k)) + concDivergence a b a0 b0 := by
    unfold hypDiv
    rw [hv.concPost]
  have d2 : hypDiv a0 b0 s' = (∑ k, stickDivergence a' b' (s'.sbPost k)) + concDivergence a' b' a0 b0 := by
    unfold hypDiv
    rw [v2.concPost]
  have l1 : ∀ t : SBState P, sbExpLlh t.ordering t.sbPost n = ∑ k, n k * (sticksOf t).logWeights k :=
    fun t => sbExpLlh_logWeights (sticksOf t) n
  unfold jointBound at hle
  simp only [List.map_cons, List.map_nil, List.sum_cons, List.sum_nil, l1, one_mul, add_zero] at hle
  rw [d1, d2]
  simp only [mul_sub, Finset.sum_sub_distrib]
  linarith

theorem hyp_gain [NeZero P] (sort : (Fin P → ℝ) → Equiv.Perm (Fin P)) (hsort : SortLaw sort) (a0 b0 : ℝ) (ha0 : 0 < a0)
    (hb0 : 0 < b0) : GainLaw (hypWeights sort) (HypOk a0 b0) (hypDiv a0 b0) (hypWeights sort).logW (fun _ _ l => l = 1) :=
  fun s n l hv hn h0 h1 => hyp_gain_state sort hsort a0 b0 ha0 hb0 s n l hv hn h0 h1

/-- One row of a set of sticks. -/
def setRow (ordering : Equiv.Perm (Fin P)) (w : CParam (Fin (P * P) → ℝ × ℝ)) (i : Fin P) : SBCat P :=
  ⟨GSM.split w.prior i, GSM.split w.post i, ordering⟩

theorem sum_split (f : Fin (P * P) → ℝ) : ∑ p, f p = ∑ i : Fin P, ∑ k : Fin P, f (finProdFinEquiv (i, k)) := by
  rw [← Equiv.sum_comp finProdFinEquiv, Fintype.sum_prod_type]

theorem sbSetDiv_eq (ordering : Equiv.Perm (Fin P)) (w : CParam (Fin (P * P) → ℝ × ℝ)) :
    sbSetDiv w = ∑ i, ∑ k, bK ((setRow ordering w i).post k) ((setRow ordering w i).prior k) := by
  unfold sbSetDiv
  simp only [bK_eq]
  exact sum_split fun p => bK (w.post p) (w.prior p)

theorem setRow_update [NeZero P] (ordering : Equiv.Perm (Fin P)) (w : CParam (Fin (P * P) → ℝ × ℝ)) (n : Fin P → Fin P → ℝ) (l : ℝ)
    (i : Fin P) : setRow ordering (sbSetUpdate ordering w n l) i = (setRow ordering w i).update (fun _ => ordering) (n i) l := by
  unfold setRow SBCat.update
  congr 1
  funext k
  show betaUpdate _ _ (GSM.merge _ (finProdFinEquiv (i, k))) l = _
  rw [GSM.merge_pair]
  rfl

theorem setRow_logW [NeZero P] (ordering : Equiv.Perm (Fin P)) (w : CParam (Fin (P * P) → ℝ × ℝ)) (i k : Fin P) :
    sbSetLogLikelihood ordering (GSM.split w.post) i k = (setRow ordering w i).logWeights k := by
  unfold sbSetLogLikelihood SBCat.logWeights sbExpLlh setRow
  simp [Pi.single_apply]

theorem sbSet_gain_param [NeZero P] (ordering : Equiv.Perm (Fin P)) (w : CParam (Fin (P * P) → ℝ × ℝ)) (n : Fin P × Fin P → ℝ) (l : ℝ)
    (hv : SetSticksValid w) (hn : ∀ i, 0 ≤ n i) (h0 : 0 < l) (h1 : l ≤ 1) :
    SetSticksValid (sbSetUpdate ordering w (fun i j => n (i, j)) l) ∧
      sbSetDiv (sbSetUpdate ordering w (fun i j => n (i, j)) l) - sbSetDiv w ≤ ∑ i : Fin P × Fin P, n i *
        (sbSetLogLikelihood ordering (GSM.split (sbSetUpdate ordering w (fun i j => n (i, j)) l).post) i.1 i.2 -
          sbSetLogLikelihood ordering (GSM.split w.post) i.1 i.2) := by
  have hrow : ∀ i, SticksValid (setRow ordering w i) := fun i => ⟨fun k => (hv _).1, fun k => (hv _).2⟩
  have hrow' : ∀ i, SticksValid (setRow ordering (sbSetUpdate ordering w (fun i j => n (i, j)) l) i) := by
    intro i
    rw [setRow_update]
    exact update_valid _ _ (hrow i) _ (fun k => hn (i, k)) l h0 h1
  refine ⟨fun p => ?_, ?_⟩
  · obtain ⟨⟨i, k⟩, rfl⟩ := finProdFinEquiv.surjective p
    exact ⟨(hv _).1, (hrow' i).post k⟩
  · rw [sbSetDiv_eq ordering, sbSetDiv_eq ordering, ← Finset.sum_sub_distrib, Fintype.sum_prod_type]
    refine Finset.sum_le_sum fun i _ => ?_
    have key := sF_same (fun _ => ordering) (setRow ordering w i) (hrow i) (fun k => n (i, k)) (fun k => hn (i, k)) l h0 h1
    have e1 := sF_eq (setRow ordering w i) (hrow i) (fun k => n (i, k))
    have e2 := sF_eq _ (hrow' i) (fun k => n (i, k))
    rw [sbExpLlh_logWeights] at e1 e2
    have e2' : sF (setRow ordering (sbSetUpdate ordering w (fun i j => n (i, j)) l) i).prior (fun k => n (i, k))
        (setRow ordering (sbSetUpdate ordering w (fun i j => n (i, j)) l) i).ordering
        (setRow ordering (sbSetUpdate ordering w (fun i j => n (i, j)) l) i).post =
        sF (setRow ordering w i).prior (fun k => n (i, k)) ordering
          ((setRow ordering w i).update (fun _ => ordering) (fun k => n (i, k)) l).post := by
      rw [setRow_update]
      rfl
    rw [e2'] at e2
    have key' : sF (setRow ordering w i).prior (fun k => n (i, k)) (setRow ordering w i).ordering (setRow ordering w i).post ≤ _ := key
    show _ ≤ ∑ k, n (i, k) * (sbSetLogLikelihood ordering (GSM.split (sbSetUpdate ordering w (fun i j => n (i, j)) l).post) i k -
      sbSetLogLikelihood ordering (GSM.split w.post) i k)
    simp only [setRow_logW, mul_sub, Finset.sum_sub_distrib]
    linarith

theorem sbSet_gain [NeZero P] (ordering : Equiv.Perm (Fin P)) : GainLaw (sbSetWeights ordering) SetSticksValid sbSetDiv
    (sbSetWeights ordering).logW (fun _ _ _ => True) := fun w n l hv hn h0 h1 =>
  ⟨sbSetUpdate ordering w (fun i j => n (i, j)) l, rfl, (sbSet_gain_param ordering w n l hv hn h0 h1).1,
    fun _ => (sbSet_gain_param ordering w n l hv hn h0 h1).2⟩

/-- The log-weights which the counts of a set of Dirichlet distributions are for. -/
noncomputable def dirLearnt (w : Fin P → CParam (List ℝ)) (i : Fin P × Fin P) : ℝ := lwOf P (w i.1).post i.2

theorem wsum_single (v : List ℝ) (h : v.length = P) : vsmul 1 (wsum P [((1 : ℝ), v)]) = v := by
  have h1 : ∀ x : List ℝ, vsmul 1 x = x := fun x => by simp [vsmul]
  rw [h1]
  show vadd (vsmul 1 v) (List.replicate P 0) = v
  rw [h1]
  subst h
  clear h1
  induction v with
  | nil => rfl
  | cons y x ih =>
    simp only [List.length_cons, List.replicate_succ, vadd, List.zipWith_cons_cons, add_zero] at ih ⊢
    rw [ih]

theorem dirSet_gain (hP : 1 ≤ P) : GainLaw (dirSetWeights P) RowsValid dirSetDiv dirLearnt
    (fun _ _ _ => True) := by
  intro w n l hv hn h0 h1
  have hv : ∀ k, ParamValid (DirValid P) (w k) := hv
  have hg := fun k => (dirConj hP).gain (w k) [((1 : ℝ), List.ofFn fun j => n (k, j))] 1 l (hv k) (by
    intro r hr
    rw [List.mem_singleton.1 hr]
    refine ⟨zero_le_one, by simp, ?_⟩
    intro v hv
    rw [List.mem_ofFn] at hv
    obtain ⟨j, rfl⟩ := hv
    exact hn (k, j)) zero_le_one h0 h1
  choose p' e v2 _ g using hg
  have hlen : ∀ k, (catStats (List.ofFn fun j => n (k, j))).length = P := by
    intro k
    have : (catStats (List.ofFn fun j => n (k, j))).length = P - 1 + 1 := by simp [catStats]
    omega
  have e' : ∀ k, (dirFam P).update (w k) (catStats (List.ofFn fun j => n (k, j))) l = .ok ⟨(w k).prior, p' k⟩ := by
    intro k
    rw [← e k]
    congr 1
    exact (wsum_single _ (hlen k)).symm
  refine ⟨fun k => ⟨(w k).prior, p' k⟩, seqFin_ok _ _ e', fun k => ⟨(hv k).1, v2 k⟩, fun _ => ?_⟩
  unfold dirSetDiv
  rw [← Finset.sum_sub_distrib, Fintype.sum_prod_type]
  refine Finset.sum_le_sum fun k _ => ?_
  have hD : 0 ≤ ((1 - l) * (dirConj hP).D (p' k) (w k).post + (dirConj hP).D (w k).post (p' k)) / l :=
    div_nonneg (add_nonneg (mul_nonneg (by linarith) ((dirConj hP).kl_nonneg _ _ (v2 k) (hv k).2))
      ((dirConj hP).kl_nonneg _ _ (hv k).2 (v2 k))) h0.le
  have gk := g k
  simp only [List.map_cons, List.map_nil, List.sum_cons, List.sum_nil, one_mul, add_zero] at gk
  have k1 : valueOf 0 ((dirFam P).paramKl (w k)) = (dirConj hP).D (w k).post (w k).prior := by
    rw [(dirConj hP).paramKl_eq _ (hv k)]
    rfl
  have k2 : valueOf 0 ((dirFam P).paramKl ⟨(w k).prior, p' k⟩) = (dirConj hP).D (p' k) (w k).prior := by
    have hv' : ParamValid (DirValid P) (⟨(w k).prior, p' k⟩ : CParam (List ℝ)) := ⟨(hv k).1, v2 k⟩
    rw [(dirConj hP).paramKl_eq _ hv']
    rfl
  have t1 : vdot ((dirConj hP).T (p' k)) ((dirFam P).stats (List.ofFn fun j => n (k, j))) = ∑ j, n (k, j) * lwOf P (p' k) j :=
    vdot_catStats hP _ (v2 k).1 _
  have t2 : vdot ((dirConj hP).T (w k).post) ((dirFam P).stats (List.ofFn fun j => n (k, j))) =
      ∑ j, n (k, j) * lwOf P (w k).post j := vdot_catStats hP _ (hv k).2.1 _
  rw [t1, t2] at gk
  rw [k1, k2]
  show _ ≤ ∑ j, n (k, j) * (lwOf P (p' k) j - lwOf P (w k).post j)
  simp only [mul_sub, Finset.sum_sub_distrib]
  linarith

/-- What a set of Dirichlet distributions installs: the transpose. -/
theorem dirSet_logW (w : Fin P → CParam (List ℝ)) (i j : Fin P) :
    (dirSetWeights P).logW w (i, j) = dirLearnt w (j, i) := by
  show vdot (catStats (eyeRow P i)) (dirExpStats (w j).post) = catExpLlh (w j).post _
  rfl

/-- The rows of a set of Dirichlet distributions after an update. -/
theorem dirSet_update (hP : 1 ≤ P) (w : Fin P → CParam (List ℝ)) (n : Fin P × Fin P → ℝ) (l : ℝ)
    (hv : ∀ k, ParamValid (DirValid P) (w k)) (hn : ∀ i, 0 ≤ n i) (h0 : 0 < l) (h1 : l ≤ 1) :
    ∃ w', (dirSetWeights P).update w n l = .ok w' ∧ ∀ k, (w' k).prior = (w k).prior ∧ DirValid P (w' k).post ∧
      dirNatural (w' k).post = vadd (dirNatural (w k).post) (vsmul l (vsub (vadd (dirNatural (w k).prior)
        (catStats (List.ofFn fun j => n (k, j)))) (dirNatural (w k).post))) := by
  have hg := fun k => (dirConj hP).gain (w k) [((1 : ℝ), List.ofFn fun j => n (k, j))] 1 l (hv k) (by
    intro r hr
    rw [List.mem_singleton.1 hr]
    refine ⟨zero_le_one, by simp, ?_⟩
    intro v hv
    rw [List.mem_ofFn] at hv
    obtain ⟨j, rfl⟩ := hv
    exact hn (k, j)) zero_le_one h0 h1
  choose p' e v2 g _ using hg
  have hlen : ∀ k, (catStats (List.ofFn fun j => n (k, j))).length = P := by
    intro k
    have : (catStats (List.ofFn fun j => n (k, j))).length = P - 1 + 1 := by simp [catStats]
    omega
  have ha : ∀ k, (dirConj hP).acc [((1 : ℝ), List.ofFn fun j => n (k, j))] 1 = catStats (List.ofFn fun j => n (k, j)) :=
    fun k => wsum_single _ (hlen k)
  refine ⟨fun k => ⟨(w k).prior, p' k⟩, seqFin_ok _ _ fun k => ?_, fun k => ⟨rfl, v2 k, ?_⟩⟩
  · rw [← e k, ha k]
  · have := g k
    rw [ha k] at this
    exact this

/-! ## Trainings -/

section
variable {ι : Type} [Fintype ι] {inner : SetModel X M} {W : WeightModel ι} (conf : WConf M S) (L : LoopClass ι S)
  (V : inner.State → Prop) (XV : X → Prop)

omit [Fintype ι] in
theorem made_trans {VW : W.State → Prop} {T : TMat S} {st : WState inner W S} (h : WValid L V VW T st) :
    st.trans = L.install (W.logW st.weights) T := (congrArg WState.trans h.made).symm

/-- The prior of a path after a change of the weights. -/
theorem w_pathPrior {δ : (ι → ℝ) → (ι → ℝ) → Fin S → Fin S → ℝ} {first : (Fin S → ℝ) → ι → ℝ} (hL : InstallLaw L δ first)
    {VW : W.State → Prop} {T : TMat S} {st st' : WState inner W S} (h : WValid L V VW T st) (h' : WValid L V VW T st') {n : ℕ}
    (p : Fin (n + 1) → Fin S) : pathPrior (st'.graph conf) p = pathPrior (st.graph conf) p *
      exp (∑ i : Fin n, δ (W.logW st.weights) (W.logW st'.weights) (p i.castSucc) (p i.succ)) := by
  refine pathPrior_mul (st.graph conf) st'.trans (δ (W.logW st.weights) (W.logW st'.weights)) (fun i j => ?_) p
  show lexp (st'.trans i j) = lexp (st.trans i j) * _
  rw [made_trans L V h', made_trans L V h, ← hL.again (W.logW st.weights)]
  exact hL.shift _ _ T i j

theorem w_feasible {δ : (ι → ℝ) → (ι → ℝ) → Fin S → Fin S → ℝ} {first : (Fin S → ℝ) → ι → ℝ} (hL : InstallLaw L δ first)
    {VW : W.State → Prop} {T : TMat S} {st st' : WState inner W S} (h : WValid L V VW T st) (h' : WValid L V VW T st')
    (u : LUtt X M) (hf : WFeasible conf st.trans u) : WFeasible conf st'.trans u := by
  obtain ⟨fr, ali⟩ := u
  cases ali with
  | some z => exact hf
  | none =>
    have hf' : 0 < evidence (st.graph conf) fun (_ : Fin (fr.1 + 1)) (_ : Fin S) => ((0 : ℝ) : LogR) := hf
    show 0 < evidence (st'.graph conf) fun (_ : Fin (fr.1 + 1)) (_ : Fin S) => ((0 : ℝ) : LogR)
    rw [evidence_prior] at hf' ⊢
    obtain ⟨p, _, hp⟩ := Finset.exists_ne_zero_of_sum_ne_zero hf'.ne'
    refine Finset.sum_pos' (fun q _ => pathPrior_nonneg _ q) ⟨p, Finset.mem_univ _, ?_⟩
    rw [w_pathPrior conf L V hL h h']
    exact mul_pos (lt_of_le_of_ne (pathPrior_nonneg _ p) (Ne.symm hp)) (exp_pos _)

/-- A training succeeds; when its objective does not decrease. -/
theorem w_train (hin : Lawful inner V XV) {δ : (ι → ℝ) → (ι → ℝ) → Fin S → Fin S → ℝ} {first : (Fin S → ℝ) → ι → ℝ}
    (hL : InstallLaw L δ first) (hzero : first (fun _ => 0) = fun _ => 0) {VW : W.State → Prop} {div : W.State → ℝ}
    {learnt : W.State → ι → ℝ} {cond : W.State → W.State → ℝ → Prop} (hW : GainLaw W VW div learnt cond) (T : TMat S)
    (a : ℝ) (ha : 0 ≤ a) (utts : List (LUtt X M)) (hal : ∀ u ∈ utts, u.ali = none ∨ L.aligned = .ok fun _ => 0)
    (scale : ℝ) (hs : 0 ≤ scale) (ls : List ℝ) (hl : ∀ l ∈ ls, 0 < l ∧ l ≤ 1) (st : WState inner W S)
    (hst : WValid L V VW T st) (hu : ∀ u ∈ utts, (∀ t, XV (u.frames.2 t)) ∧ WFeasible conf st.trans u) :
    ∃ st', wTrain conf L a utts scale st ls = .ok st' ∧ WValid L V VW T st' ∧ (∀ u ∈ utts, WFeasible conf st'.trans u) ∧
      ((∀ l ∈ ls, ∀ s s', cond s s' l) → (∀ u ∈ utts, ∀ s : WState inner W S, ∀ i, first (wStartProb conf a s u) i = 0) →
        learnt = W.logW → wObjective div conf a utts scale st ≤ wObjective div conf a utts scale st') := by
  induction ls generalizing st with
  | nil => exact ⟨st, rfl, hst, fun u h => (hu u h).2, fun _ _ _ => le_rfl⟩
  | cons l ls ih =>
    obtain ⟨h0, h1⟩ := hl l (by simp)
    obtain ⟨s1, e1, v1, _, _, o1⟩ := w_step conf L V XV hin hL hzero hW T st hst a ha utts hu hal scale l hs h0 h1
    obtain ⟨st', e2, v2, f2, o2⟩ := ih (fun l h => hl l (by simp [h])) s1 v1
      fun u h => ⟨(hu u h).1, w_feasible conf L V hL hst v1 u (hu u h).2⟩
    refine ⟨st', ?_, v2, f2, fun hc hf he => ?_⟩
    · rw [wTrain, e1]
      exact e2
    · have o1 := o1 (hc l (by simp) _ _)
      have hz : (utts.map fun u => ∑ i, first (wStartProb conf a st u) i * (W.logW s1.weights i - W.logW st.weights i)).sum = 0 := by
        refine List.sum_eq_zero fun x hx => ?_
        obtain ⟨u, hu', rfl⟩ := List.mem_map.1 hx
        exact Finset.sum_eq_zero fun i _ => by rw [hf u hu' st i, zero_mul]
      rw [hz, he] at o1
      simp only [sub_self, mul_zero, Finset.sum_const_zero, add_zero] at o1
      exact o1.trans (o2 (fun l h => hc l (by simp [h])) hf he)

/-- If the change of the weights does not change the possible paths, only the divergence changes. -/
theorem w_same (hin : Lawful inner V XV) {δ : (ι → ℝ) → (ι → ℝ) → Fin S → Fin S → ℝ} {first : (Fin S → ℝ) → ι → ℝ}
    (hL : InstallLaw L δ first) {VW : W.State → Prop} (div : W.State → ℝ) {T : TMat S} {st st' : WState inner W S}
    (h : WValid L V VW T st) (h' : WValid L V VW T st') (a : ℝ) (utts : List (LUtt X M)) (scale : ℝ)
    (hx : ∀ u ∈ utts, ∀ t, XV (u.frames.2 t)) (hfix : st'.comps = st.comps)
    (hδ : ∀ u ∈ utts, ∀ (p : Fin (u.frames.1 + 1) → Fin S) (i : Fin u.frames.1), 0 < pathPrior (st.graph conf) p →
      δ (W.logW st.weights) (W.logW st'.weights) (p i.castSucc) (p i.succ) = 0) :
    wObjective div conf a utts scale st' + div st'.weights = wObjective div conf a utts scale st + div st.weights := by
  have hlog : ∀ u ∈ utts, wLogProb conf a st' u = wLogProb conf a st u := by
    intro u hm
    have hδ' := hδ u hm
    have hx' := hx u hm
    obtain ⟨fr, ali⟩ := u
    unfold wLogProb
    cases ali with
    | some z => dsimp only; rw [hfix]
    | none =>
      dsimp only
      rw [hfix, ← asLog_scores inner V XV hin conf.order st.comps h.comps a fr hx', evidence_real, evidence_real]
      congr 1
      refine Finset.sum_congr rfl fun p _ => ?_
      congr 1
      rw [w_pathPrior conf L V hL h h']
      rcases (pathPrior_nonneg (st.graph conf) p).eq_or_lt with hz | hz
      · rw [← hz, zero_mul]
      · rw [Finset.sum_eq_zero fun i _ => hδ' p i hz, exp_zero, mul_one]
  unfold wObjective
  rw [List.map_congr_left hlog, hfix]
  ring

omit [Fintype ι] in
theorem w_infeasible (hin : Lawful inner V XV) (hS : 0 < S) (st : WState inner W S) (hv : V st.comps) (a : ℝ) (u : LUtt X M)
    (hali : u.ali = none) (us : List (LUtt X M)) (hx : ∀ t, XV (u.frames.2 t)) (hf : ¬ WFeasible conf st.trans u)
    (scale l : ℝ) (ls : List ℝ) : wStep conf L st a (u :: us) scale l = .error .valueError ∧
      wTrain conf L a (u :: us) scale st (l :: ls) = .error .valueError := by
  refine (fun h => ⟨h, by unfold wTrain; rw [h]⟩ : _ → _ ∧ _) ?_
  obtain ⟨fr, ali⟩ := u
  cases hali
  have h := hmmRows_infeasible (st.graph conf) (orderedSet conf.order inner) V XV
    (orderedSet_lawful conf.order inner V XV hin) a fr hx hS hf st.comps hv
  have h' : wAcc conf L st a ⟨fr, none⟩ = .error .valueError := by
    unfold wAcc
    dsimp only
    rw [h]
    rfl
  unfold wStep
  rw [List.mapM_cons, h']
  rfl

/-- The probability of the first state, and the posterior of a path. -/
theorem wStartProb_eq (hin : Lawful inner V XV) (st : WState inner W S) (hv : V st.comps) (a : ℝ) (fr : Utt X)
    (hx : ∀ t, XV (fr.2 t)) : wStartProb conf a st ⟨fr, none⟩ =
      gam (st.graph conf) (scoresOf (orderedSet conf.order inner) st.comps a fr) 0 := by
  funext s
  unfold wStartProb
  dsimp only
  rw [← asLog_scores inner V XV hin conf.order st.comps hv a fr hx]
  rfl

end

end Verif.VB
