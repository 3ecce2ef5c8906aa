import Verif.Lemmas.VBHmm
import Verif.Spec.LoopVB
import Verif.Props.PhoneLoop

/-!
# Lemmas on the training of phone loops
-/

namespace Verif.VB

open Real Verif.Dists Verif.DistSpec Verif.Spec Verif.PhoneLoop Verif.Props

variable {X : Type} {M S P : ℕ}

/-! ## The gain of a change of scores and transitions -/

theorem pathPrior_mul {K n : ℕ} (g : CGraph K) (T' : TMat K) (δ : Fin K → Fin K → ℝ)
    (hT : ∀ i j, lexp (T' i j) = lexp (g.trans i j) * exp (δ i j)) (p : Fin (n + 1) → Fin K) :
    pathPrior (⟨g.init, g.final, T'⟩ : CGraph K) p =
      pathPrior g p * exp (∑ i : Fin n, δ (p i.castSucc) (p i.succ)) := by
  unfold pathPrior
  simp only [hT]
  rw [Finset.prod_mul_distrib, Real.exp_sum]
  ring

/-- Sums weighted by the transition posteriors are expectations over state sequences. -/
theorem sum_transPosts {K n : ℕ} (g : CGraph K) (v : Fin (n + 1) → Fin K → ℝ) (h : 0 < evidence g (asLog v))
    (δ : Fin K → Fin K → ℝ) :
    ∑ i : Fin n, ∑ s, ∑ d, transPosts g (asLog v) i s d * δ s d =
      ∑ p : Fin (n + 1) → Fin K, pathWeight g (asLog v) p / evidence g (asLog v) *
        ∑ i : Fin n, δ (p i.castSucc) (p i.succ) := by
  simp only [Finset.mul_sum]
  rw [Finset.sum_comm (s := (Finset.univ : Finset (Fin (n + 1) → Fin K)))]
  refine Finset.sum_congr rfl fun i _ => ?_
  simp only [C12_transition_posterior_is_marginal g (asLog v) h, Finset.sum_div, Finset.sum_mul]
  have e : ∀ s d : Fin K, ∀ p : Fin (n + 1) → Fin K,
      (if p i.castSucc = s ∧ p i.succ = d then pathWeight g (asLog v) p else 0) / evidence g (asLog v) * δ s d =
        if p i.castSucc = s then (if p i.succ = d then
          pathWeight g (asLog v) p / evidence g (asLog v) * δ s d else 0) else 0 := by
    intro s d p
    by_cases h1 : p i.castSucc = s
    · by_cases h2 : p i.succ = d
      · simp [h1, h2]
      · simp [h2]
    · simp [h1]
  simp only [e]
  rw [Finset.sum_congr rfl fun s _ => Finset.sum_comm, Finset.sum_comm]
  refine Finset.sum_congr rfl fun p _ => ?_
  rw [Finset.sum_eq_single (p i.castSucc), Finset.sum_eq_single (p i.succ)]
  · simp
  · intro d _ hd; rw [if_pos rfl, if_neg (Ne.symm hd)]
  · intro h; exact absurd (Finset.mem_univ _) h
  · intro s _ hs; exact Finset.sum_eq_zero fun d _ => if_neg (Ne.symm hs)
  · intro h; exact absurd (Finset.mem_univ _) h

/-- The E-step inequality when the transitions change as well. -/
theorem graph_gain {K n : ℕ} (g : CGraph K) (T' : TMat K) (δ : Fin K → Fin K → ℝ)
    (hT : ∀ i j, lexp (T' i j) = lexp (g.trans i j) * exp (δ i j)) (v v' : Fin (n + 1) → Fin K → ℝ)
    (h : 0 < evidence g (asLog v)) :
    ∑ t, ∑ s, gam g v t s * (v' t s - v t s) + ∑ i : Fin n, ∑ s, ∑ d, transPosts g (asLog v) i s d * δ s d ≤
      log (evidence (⟨g.init, g.final, T'⟩ : CGraph K) (asLog v')) - log (evidence g (asLog v)) := by
  rw [sum_gam g v fun t s => v' t s - v t s, sum_transPosts g v h, ← Finset.sum_add_distrib]
  simp only [pathWeight_real, evidence_real, pathPrior_mul g T' δ hT] at h ⊢
  have := log_sum_exp_gain (pathPrior g) (fun p => ∑ t, v t (p t))
    (fun p => (∑ t, v' t (p t)) + ∑ i : Fin n, δ (p i.castSucc) (p i.succ)) (pathPrior_nonneg g) h
  refine le_trans (le_of_eq ?_) (this.trans (le_of_eq ?_))
  · refine Finset.sum_congr rfl fun p _ => ?_
    rw [Finset.sum_sub_distrib]
    ring
  · congr 2
    refine Finset.sum_congr rfl fun p _ => ?_
    rw [exp_add]
    ring

/-! ## The change of the transitions -/

/-- How the logarithm of a transition changes with the weights. -/
noncomputable def shift (starts : Fin P → Fin S) (ends : List (Fin S)) (w w' : Fin P → ℝ) (e s : Fin S) : ℝ :=
  if e ∈ ends then ∑ j, if starts j = s then w' j - w j else 0 else 0

theorem refresh_shift (starts : Fin P → Fin S) (hinj : Function.Injective starts) (ends : List (Fin S))
    (hd : ∀ e ∈ ends, ∀ j, starts j ≠ e) (w w' : Fin P → ℝ) (T : TMat S) (e s : Fin S) :
    lexp (refresh starts ends w' (refresh starts ends w T) e s) =
      lexp (refresh starts ends w T e s) * exp (shift starts ends w w' e s) := by
  unfold shift
  by_cases he : e ∈ ends
  · rw [if_pos he]
    by_cases hs : ∃ j, starts j = s
    · obtain ⟨j, rfl⟩ := hs
      rw [refresh_start starts hinj w' ends _ hd e he j, refresh_start starts hinj w ends _ hd e he j,
        refresh_other starts hinj w ends T e e (.inr fun j => hd e he j), Finset.sum_eq_single j,
        lexp_add, lexp_add, lexp_coe, lexp_coe, if_pos rfl, mul_assoc, ← exp_add]
      · congr 2; ring
      · intro k _ hk; exact if_neg fun h => hk (hinj h)
      · intro h; exact absurd (Finset.mem_univ _) h
    · push Not at hs
      rw [refresh_other starts hinj w' ends _ e s (.inr hs), Finset.sum_eq_zero fun j _ => if_neg (hs j), exp_zero,
        mul_one]
  · rw [if_neg he, refresh_other starts hinj w' ends _ e s (.inl he), exp_zero, mul_one]

theorem sum_shift {n : ℕ} (starts : Fin P → Fin S) (ends : List (Fin S)) (hn : ends.Nodup) (w w' : Fin P → ℝ)
    (x : Fin n → Fin S → Fin S → ℝ) :
    ∑ i, ∑ s, ∑ d, x i s d * shift starts ends w w' s d =
      ∑ j, (ends.map fun e => ∑ t, x t e (starts j)).sum * (w' j - w j) := by
  have h1 : ∀ i s, ∑ d, x i s d * shift starts ends w w' s d =
      if s ∈ ends then ∑ j, x i s (starts j) * (w' j - w j) else 0 := by
    intro i s
    unfold shift
    by_cases hs : s ∈ ends
    · simp only [if_pos hs, Finset.mul_sum]
      rw [Finset.sum_comm]
      refine Finset.sum_congr rfl fun j _ => ?_
      rw [Finset.sum_eq_single (starts j)]
      · rw [if_pos rfl]
      · intro d _ hd; rw [if_neg (Ne.symm hd), mul_zero]
      · intro h; exact absurd (Finset.mem_univ _) h
    · simp [hs]
  have h2 : ∀ f : Fin S → ℝ, ∑ s, (if s ∈ ends then f s else 0) = (ends.map f).sum := by
    intro f
    rw [← List.sum_toFinset f hn, ← Finset.sum_filter]
    refine Finset.sum_congr ?_ fun _ _ => rfl
    ext s
    simp
  simp only [h1, h2]
  have h3 : ∀ l : List (Fin S), ∑ i, (l.map fun s => ∑ j, x i s (starts j) * (w' j - w j)).sum =
      ∑ j, (l.map fun e => ∑ t, x t e (starts j)).sum * (w' j - w j) := by
    intro l
    induction l with
    | nil => simp
    | cons e l ih =>
      simp only [List.map_cons, List.sum_cons, add_mul, Finset.sum_add_distrib, ih]
      congr 1
      rw [Finset.sum_comm]
      exact Finset.sum_congr rfl fun j _ => by rw [Finset.sum_mul]
  exact h3 ends

/-! ## Statistics of an utterance -/

section
variable (conf : LoopConf M S P) (inner : SetModel X M) (V : inner.State → Prop) (XV : X → Prop)

theorem scoresOf_ordered (hin : Lawful inner V XV) {S' : ℕ} (order : Fin S' → Fin M) (c : inner.State) (hc : V c) (a : ℝ)
    (u : Utt X) (hx : ∀ t, XV (u.2 t)) (t : Fin (u.1 + 1)) (s : Fin S') :
    scoresOf (orderedSet order inner) c a u t s = a * valueOf 0 (inner.llh c (u.2 t)) (order s) := by
  obtain ⟨v, h⟩ := hin.llh_ok c (u.2 t) hc (hx t)
  unfold scoresOf orderedSet
  dsimp only
  rw [h]
  rfl

theorem asLog_scores (hin : Lawful inner V XV) {S' : ℕ} (order : Fin S' → Fin M) (c : inner.State) (hc : V c) (a : ℝ)
    (u : Utt X) (hx : ∀ t, XV (u.2 t)) :
    asLog (scoresOf (orderedSet order inner) c a u) = stateScores c a order u := by
  funext t s
  unfold asLog stateScores
  rw [scoresOf_ordered inner V XV hin order c hc a u hx]

/-- The rows which an utterance gives to the emissions. -/
noncomputable def lrows (st : LoopState inner S) (a : ℝ) (u : LUtt X M) : List (X × (Fin M → ℝ)) :=
  match u.ali with
  | none => pdfRows conf.order (List.ofFn fun t => (u.frames.2 t, fun s =>
      a * gam (st.graph conf) (scoresOf (orderedSet conf.order inner) st.comps a u.frames) t s))
  | some ⟨_, g, order⟩ => pdfRows order (List.ofFn fun t => (u.frames.2 t, fun s =>
      a * gam g (scoresOf (orderedSet order inner) st.comps a u.frames) t s))

/-- Its counts of the units. -/
noncomputable def lcounts (st : LoopState inner S) (a : ℝ) (u : LUtt X M) (j : Fin P) : ℝ :=
  match u.ali with
  | none => phoneCounts conf.starts conf.ends
      (gam (st.graph conf) (scoresOf (orderedSet conf.order inner) st.comps a u.frames) 0)
      (transPosts (st.graph conf) (asLog (scoresOf (orderedSet conf.order inner) st.comps a u.frames))) j
  | some _ => 0

theorem catStats_zero (hP : 1 ≤ P) : (List.ofFn fun _ : Fin P => (0 : ℝ)) = catStats (List.ofFn fun _ : Fin P => (0 : ℝ)) := by
  obtain ⟨Q, rfl⟩ : ∃ Q, P = Q + 1 := ⟨P - 1, by omega⟩
  unfold catStats
  rw [List.ofFn_const, List.dropLast_replicate, List.sum_replicate, smul_zero, Nat.add_sub_cancel, List.replicate_succ']

theorem loopAcc_eq (hin : Lawful inner V XV) (hP : 1 ≤ P) (st : LoopState inner S) (hv : V st.comps) (a : ℝ)
    (u : LUtt X M) (hx : ∀ t, XV (u.frames.2 t)) (hf : LoopFeasible conf st.trans u) :
    loopAcc conf inner st a u = .ok (lrows conf inner st a u, catStats (List.ofFn (lcounts conf inner st a u))) := by
  obtain ⟨fr, ali⟩ := u
  cases ali with
  | none =>
    have hf' : Feasible (st.graph conf) fr := hf
    have ho := orderedSet_lawful conf.order inner V XV hin
    unfold loopAcc loopCounts lrows lcounts
    dsimp only
    rw [hmmRows_eq (st.graph conf) (orderedSet conf.order inner) V XV ho st.comps hv a fr hx hf', ok_bind,
      hmmLlhs_eq (orderedSet conf.order inner) V XV ho st.comps hv a fr hx]
    simp only [ok_bind]
    rw [hmmResps_eq _ _ (evidence_pos_of_feasible _ hf' _)]
    rfl
  | some z =>
    obtain ⟨S', g, order⟩ := z
    have hf' : Feasible g fr := hf
    have ho := orderedSet_lawful order inner V XV hin
    unfold loopAcc lrows lcounts
    dsimp only
    rw [hmmRows_eq g (orderedSet order inner) V XV ho st.comps hv a fr hx hf', ok_bind, ← catStats_zero hP]
    rfl

theorem pdfRows_sum {S' : ℕ} (order : Fin S' → Fin M) (rows : List (X × (Fin S' → ℝ))) (f : X → Fin M → ℝ) :
    ((pdfRows order rows).map fun r => ∑ m, r.2 m * f r.1 m).sum =
      (rows.map fun r => ∑ s, r.2 s * f r.1 (order s)).sum := by
  unfold pdfRows
  rw [List.map_map]
  congr 1
  refine List.map_congr_left fun r _ => ?_
  show ∑ m, (∑ s, if order s = m then r.2 s else 0) * f r.1 m = _
  simp only [Finset.sum_mul]
  rw [Finset.sum_comm]
  refine Finset.sum_congr rfl fun s _ => ?_
  rw [Finset.sum_eq_single (order s)]
  · rw [if_pos rfl]
  · intro m _ hm; rw [if_neg (Ne.symm hm), zero_mul]
  · intro h; exact absurd (Finset.mem_univ _) h

theorem lrows_ok (hin : Lawful inner V XV) (st : LoopState inner S) (a : ℝ) (ha : 0 ≤ a) (u : LUtt X M)
    (hx : ∀ t, XV (u.frames.2 t)) : ∀ r ∈ lrows conf inner st a u, XV r.1 ∧ ∀ m, 0 ≤ r.2 m := by
  have key : ∀ {S' : ℕ} (g : CGraph S') (order : Fin S' → Fin M) (w : Fin (u.frames.1 + 1) → Fin S' → ℝ),
      ∀ r ∈ pdfRows order (List.ofFn fun t => (u.frames.2 t, fun s => a * gam g w t s)),
        XV r.1 ∧ ∀ m, 0 ≤ r.2 m := by
    intro S' g order w r hr
    obtain ⟨q, hq, rfl⟩ := List.mem_map.1 hr
    rw [List.mem_ofFn] at hq
    obtain ⟨t, rfl⟩ := hq
    refine ⟨hx t, fun m => ?_⟩
    show 0 ≤ ∑ s, if order s = m then a * gam g w t s else 0
    refine Finset.sum_nonneg fun s _ => ?_
    split_ifs
    · exact mul_nonneg ha (gam_nonneg g _ t s)
    · exact le_rfl
  obtain ⟨fr, ali⟩ := u
  cases ali with
  | none => exact key _ _ _
  | some z => obtain ⟨S', g, order⟩ := z; exact key _ _ _

theorem transPosts_nonneg {K n : ℕ} (g : CGraph K) (v : Fin (n + 1) → Frame K) (h : 0 < evidence g v) (i : Fin n) (s d : Fin K) :
    0 ≤ transPosts g v i s d := by
  rw [C12_transition_posterior_is_marginal g v h]
  refine div_nonneg (Finset.sum_nonneg fun p _ => ?_) h.le
  split_ifs
  · exact pathWeight_nonneg g _ p
  · exact le_rfl

theorem lcounts_nonneg (st : LoopState inner S) (a : ℝ)
    (u : LUtt X M) (hf : LoopFeasible conf st.trans u) (j : Fin P) :
    0 ≤ lcounts conf inner st a u j := by
  obtain ⟨fr, ali⟩ := u
  cases ali with
  | none =>
    have hf' : Feasible (st.graph conf) fr := hf
    unfold lcounts phoneCounts
    dsimp only
    refine add_nonneg (List.sum_nonneg ?_) (gam_nonneg _ _ _ _)
    intro x hx
    obtain ⟨e, _, rfl⟩ := List.mem_map.1 hx
    exact Finset.sum_nonneg fun t _ => transPosts_nonneg _ _ (evidence_pos_of_feasible _ hf' _) _ _ _
  | some z => exact le_rfl

/-- The gain of one utterance. -/
theorem utt_gain (hin : Lawful inner V XV) (hU : LoopUnits conf) (T : TMat S) (st st' : LoopState inner S) (w w' : Fin P → ℝ)
    (h1 : st.trans = refresh conf.starts conf.ends w T) (h2 : st'.trans = refresh conf.starts conf.ends w' st.trans)
    (hv : V st.comps) (hv' : V st'.comps) (a : ℝ) (u : LUtt X M) (hx : ∀ t, XV (u.frames.2 t))
    (hf : LoopFeasible conf st.trans u) :
    ((lrows conf inner st a u).map fun r =>
        ∑ m, r.2 m * (valueOf 0 (inner.llh st'.comps r.1) m - valueOf 0 (inner.llh st.comps r.1) m)).sum +
      ∑ j, lcounts conf inner st a u j * (w' j - w j) ≤
    uttLogProb conf st' a u - uttLogProb conf st a u +
      ∑ j, startProb conf st a u (conf.starts j) * (w' j - w j) := by
  have rowsum : ∀ {S' : ℕ} (g : CGraph S') (order : Fin S' → Fin M),
      ((pdfRows order (List.ofFn fun t => (u.frames.2 t, fun s =>
        a * gam g (scoresOf (orderedSet order inner) st.comps a u.frames) t s))).map fun r =>
        ∑ m, r.2 m * (valueOf 0 (inner.llh st'.comps r.1) m - valueOf 0 (inner.llh st.comps r.1) m)).sum =
      ∑ t, ∑ s, gam g (scoresOf (orderedSet order inner) st.comps a u.frames) t s *
        (scoresOf (orderedSet order inner) st'.comps a u.frames t s -
          scoresOf (orderedSet order inner) st.comps a u.frames t s) := by
    intro S' g order
    rw [pdfRows_sum order _ fun x m => valueOf 0 (inner.llh st'.comps x) m - valueOf 0 (inner.llh st.comps x) m,
      List.map_ofFn, List.sum_ofFn]
    refine Finset.sum_congr rfl fun t _ => Finset.sum_congr rfl fun s _ => ?_
    rw [scoresOf_ordered inner V XV hin order _ hv a _ hx, scoresOf_ordered inner V XV hin order _ hv' a _ hx]
    ring
  obtain ⟨fr, ali⟩ := u
  cases ali with
  | none =>
    have hf' : Feasible (st.graph conf) fr := hf
    have hev := evidence_pos_of_feasible _ hf' (scoresOf (orderedSet conf.order inner) st.comps a fr)
    have key := graph_gain (st.graph conf) st'.trans (shift conf.starts conf.ends w w') (by
      intro i j
      rw [h2]
      show lexp (refresh _ _ w' st.trans i j) = lexp (st.trans i j) * _
      rw [h1]
      exact refresh_shift conf.starts hU.starts conf.ends hU.disjoint w w' T i j)
      (scoresOf (orderedSet conf.order inner) st.comps a fr) (scoresOf (orderedSet conf.order inner) st'.comps a fr) hev
    rw [sum_shift conf.starts conf.ends hU.ends] at key
    have hr := rowsum (st.graph conf) conf.order
    unfold lrows lcounts uttLogProb startProb
    dsimp only at hr ⊢
    rw [hr]
    rw [← asLog_scores inner V XV hin conf.order st.comps hv a fr hx,
      ← asLog_scores inner V XV hin conf.order st'.comps hv' a fr hx]
    have e : ∑ j, phoneCounts conf.starts conf.ends
        (gam (st.graph conf) (scoresOf (orderedSet conf.order inner) st.comps a fr) 0)
        (transPosts (st.graph conf) (asLog (scoresOf (orderedSet conf.order inner) st.comps a fr))) j * (w' j - w j) =
      ∑ j, (conf.ends.map fun e => ∑ t, transPosts (st.graph conf)
        (asLog (scoresOf (orderedSet conf.order inner) st.comps a fr)) t e (conf.starts j)).sum * (w' j - w j) +
      ∑ j, gam (st.graph conf) (scoresOf (orderedSet conf.order inner) st.comps a fr) 0 (conf.starts j) * (w' j - w j) := by
      rw [← Finset.sum_add_distrib]
      refine Finset.sum_congr rfl fun j _ => ?_
      unfold phoneCounts
      ring
    rw [e]
    have e' : (⟨(st.graph conf).init, (st.graph conf).final, st'.trans⟩ : CGraph S) = st'.graph conf := rfl
    rw [e'] at key
    unfold gam at key ⊢
    linarith
  | some z =>
    obtain ⟨S', g, order⟩ := z
    have hf' : Feasible g fr := hf
    have hev := evidence_pos_of_feasible _ hf' (scoresOf (orderedSet order inner) st.comps a fr)
    have key := evidence_gain g (scoresOf (orderedSet order inner) st.comps a fr)
      (scoresOf (orderedSet order inner) st'.comps a fr) hev
    have hr := rowsum g order
    unfold lrows lcounts uttLogProb startProb
    dsimp only at hr ⊢
    rw [hr]
    rw [← asLog_scores inner V XV hin order st.comps hv a fr hx,
      ← asLog_scores inner V XV hin order st'.comps hv' a fr hx]
    simp only [zero_mul, Finset.sum_const_zero, add_zero]
    exact key

/-! ## A step -/

theorem make_eq (T : TMat S) (c : CParam (List ℝ)) (s : inner.State) (hc : DirValid P c.post) :
    LoopState.make conf T c s = .ok ⟨refresh conf.starts conf.ends (lwOf P c.post) T, c, s⟩ := by
  unfold LoopState.make
  rw [logWeights_eq _ hc.1]
  rfl

theorem refresh_refresh (hU : LoopUnits conf) (w w' : Fin P → ℝ) (T : TMat S) :
    refresh conf.starts conf.ends w' (refresh conf.starts conf.ends w T) = refresh conf.starts conf.ends w' T :=
  C19_history conf.starts hU.starts conf.ends hU.disjoint T [w] w'

/-- A step succeeds; what its result satisfies. -/
theorem loop_step (hin : Lawful inner V XV) (hP : 1 ≤ P) (hU : LoopUnits conf) (T : TMat S) (st : LoopState inner S)
    (hst : LoopValid conf V T st) (a : ℝ) (ha : 0 ≤ a) (utts : List (LUtt X M))
    (hu : ∀ u ∈ utts, (∀ t, XV (u.frames.2 t)) ∧ LoopFeasible conf st.trans u) (scale l : ℝ) (hs : 0 ≤ scale)
    (h0 : 0 < l) (h1 : l ≤ 1) :
    ∃ st', loopStep conf inner st a utts scale l = .ok st' ∧ LoopValid conf V T st' ∧
      inner.step st.comps (utts.map (lrows conf inner st a)).flatten scale l = .ok st'.comps ∧
      st'.weights.prior = st.weights.prior ∧
      dirNatural st'.weights.post = vadd (dirNatural st.weights.post) (vsmul l (vsub (vadd (dirNatural st.weights.prior)
        (vsmul scale (wsum P (utts.map fun u => (1, catStats (List.ofFn (lcounts conf inner st a u)))))))
          (dirNatural st.weights.post))) ∧
      loopObjective conf a utts scale st ≤ loopObjective conf a utts scale st' +
        scale * (utts.map fun u => ∑ j, startProb conf st a u (conf.starts j) *
          (lwOf P st'.weights.post j - lwOf P st.weights.post j)).sum := by
  have hacc : utts.mapM (loopAcc conf inner st a) = .ok (utts.map fun u =>
      (lrows conf inner st a u, catStats (List.ofFn (lcounts conf inner st a u)))) :=
    mapM_ok_map _ _ utts fun u h => loopAcc_eq conf inner V XV hin hP st hst.comps a u (hu u h).1 (hu u h).2
  obtain ⟨s', e1, v1, g1⟩ := hin.step_ok st.comps ((utts.map (lrows conf inner st a)).flatten) scale l hst.comps (by
    intro r h
    obtain ⟨L, hL, hr⟩ := List.mem_flatten.1 h
    obtain ⟨u, hu', rfl⟩ := List.mem_map.1 hL
    exact lrows_ok conf inner V XV hin st a ha u (hu u hu').1 r hr) hs h0 h1
  obtain ⟨p', e2, v2, n2, g2⟩ := (dirConj hP).gain st.weights
    (utts.map fun u => ((1 : ℝ), List.ofFn (lcounts conf inner st a u))) scale l hst.weights (by
      intro r h
      obtain ⟨u, hx, rfl⟩ := List.mem_map.1 h
      refine ⟨zero_le_one, by simp, ?_⟩
      intro v hv
      rw [List.mem_ofFn] at hv
      obtain ⟨j, rfl⟩ := hv
      exact lcounts_nonneg conf inner st a u (hu u hx).2 j) hs h0 h1
  have hT : st.trans = refresh conf.starts conf.ends (lwOf P st.weights.post) T := by
    have := hst.made
    rw [make_eq conf inner T _ _ hst.weights.2] at this
    exact (congrArg LoopState.trans (Except.ok.inj this)).symm
  have hacc' : vsmul scale (wsum P (utts.map fun u => ((1 : ℝ), catStats (List.ofFn (lcounts conf inner st a u))))) =
      (dirConj hP).acc (utts.map fun u => ((1 : ℝ), List.ofFn (lcounts conf inner st a u))) scale := by
    unfold Conj.acc
    rw [List.map_map]
    rfl
  have hval : LoopValid conf V T ⟨refresh conf.starts conf.ends (lwOf P p') st.trans, ⟨st.weights.prior, p'⟩, s'⟩ := by
    refine ⟨⟨hst.weights.1, v2⟩, v1, ?_⟩
    rw [make_eq conf inner T _ _ v2]
    dsimp only
    rw [hT, refresh_refresh conf hU]
  refine ⟨⟨refresh conf.starts conf.ends (lwOf P p') st.trans, ⟨st.weights.prior, p'⟩, s'⟩, ?_, hval, e1, rfl, ?_, ?_⟩
  · unfold loopStep
    rw [hacc, ok_bind, List.map_map, List.map_map]
    have h1 : (inner.step st.comps (List.map (Prod.fst ∘ fun u =>
        (lrows conf inner st a u, catStats (List.ofFn (lcounts conf inner st a u)))) utts).flatten scale l) = .ok s' := e1
    rw [h1, ok_bind]
    have h2 : (dirFam P).update st.weights (vsmul scale (wsum P (List.map ((fun c : List (X × (Fin M → ℝ)) × List ℝ => ((1 : ℝ), c.2)) ∘ fun u =>
        (lrows conf inner st a u, catStats (List.ofFn (lcounts conf inner st a u)))) utts))) l = .ok ⟨st.weights.prior, p'⟩ := by
      rw [← e2, ← hacc']
      rfl
    rw [h2, ok_bind]
    exact make_eq conf inner st.trans _ s' v2
  · rw [hacc']
    exact n2
  · set st' : LoopState inner S := ⟨refresh conf.starts conf.ends (lwOf P p') st.trans, ⟨st.weights.prior, p'⟩, s'⟩ with hst'
    have hD : 0 ≤ ((1 - l) * (dirConj hP).D p' st.weights.post + (dirConj hP).D st.weights.post p') / l :=
      div_nonneg (add_nonneg (mul_nonneg (by linarith) ((dirConj hP).kl_nonneg _ _ v2 hst.weights.2))
        ((dirConj hP).kl_nonneg _ _ hst.weights.2 v2)) h0.le
    have k : ∀ c : CParam (List ℝ), ParamValid (DirValid P) c →
        valueOf 0 ((dirFam P).paramKl c) = (dirConj hP).D c.post c.prior := by
      intro c hc
      rw [(dirConj hP).paramKl_eq _ hc]
      rfl
    have w : (List.map (fun r : ℝ × List ℝ => r.1 * (vdot ((dirConj hP).T p') ((dirFam P).stats r.2) -
        vdot ((dirConj hP).T st.weights.post) ((dirFam P).stats r.2)))
          (utts.map fun u => ((1 : ℝ), List.ofFn (lcounts conf inner st a u)))).sum =
        (utts.map fun u => ∑ j, lcounts conf inner st a u j * (lwOf P p' j - lwOf P st.weights.post j)).sum := by
      rw [List.map_map]
      congr 1
      refine List.map_congr_left fun u _ => ?_
      show 1 * (vdot (dirExpStats p') (catStats (List.ofFn (lcounts conf inner st a u))) -
        vdot (dirExpStats st.weights.post) (catStats (List.ofFn (lcounts conf inner st a u)))) = _
      rw [one_mul, vdot_catStats hP _ v2.1, vdot_catStats hP _ hst.weights.2.1, ← Finset.sum_sub_distrib]
      exact Finset.sum_congr rfl fun j _ => by ring
    rw [w] at g2
    rw [sum_flatten_map] at g1
    have key : (utts.map fun u => ((lrows conf inner st a u).map fun r =>
          ∑ m, r.2 m * (valueOf 0 (inner.llh s' r.1) m - valueOf 0 (inner.llh st.comps r.1) m)).sum +
          ∑ j, lcounts conf inner st a u j * (lwOf P p' j - lwOf P st.weights.post j)).sum ≤
        (utts.map fun u => uttLogProb conf st' a u - uttLogProb conf st a u +
          ∑ j, startProb conf st a u (conf.starts j) * (lwOf P p' j - lwOf P st.weights.post j)).sum :=
      sum_map_le utts _ _ fun u h => utt_gain conf inner V XV hin hU T st st' _ _ hT rfl hst.comps v1 a u
        (hu u h).1 (hu u h).2
    rw [List.sum_map_add, List.sum_map_add, sum_map_sub'] at key
    have key' := mul_le_mul_of_nonneg_left key hs
    unfold loopObjective
    rw [k _ hst.weights, k _ hval.weights]
    rw [mul_add, mul_add, mul_sub] at key'
    show _ ≤ _ - valueOf 0 (inner.kl s') - (dirConj hP).D p' st.weights.prior + _
    linarith

end

end Verif.VB
