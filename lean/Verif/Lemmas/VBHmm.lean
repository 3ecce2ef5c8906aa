import Verif.Lemmas.VBSets

/-!
# Lemmas on variational training of HMMs
-/

namespace Verif.VB

open Real Verif.Dists Verif.DistSpec Verif.Spec Verif.Props

variable {X : Type}

/-- The probability of a state sequence in the graph, without the emissions. -/
noncomputable def pathPrior {K n : ℕ} (g : CGraph K) (p : Fin (n + 1) → Fin K) : ℝ :=
  lexp (g.init (p 0)) * (∏ i : Fin n, lexp (g.trans (p i.castSucc) (p i.succ)))
    * lexp (g.final (p (Fin.last n)))

theorem pathPrior_nonneg {K n : ℕ} (g : CGraph K) (p : Fin (n + 1) → Fin K) : 0 ≤ pathPrior g p :=
  mul_nonneg (mul_nonneg (lexp_nonneg _) (Finset.prod_nonneg fun _ _ => lexp_nonneg _))
    (lexp_nonneg _)

theorem pathWeight_real {K n : ℕ} (g : CGraph K) (v : Fin (n + 1) → Fin K → ℝ)
    (p : Fin (n + 1) → Fin K) :
    pathWeight g (asLog v) p = pathPrior g p * exp (∑ t, v t (p t)) := by
  unfold pathWeight pathPrior asLog
  simp only [lexp_coe]
  rw [Real.exp_sum]
  ring

theorem evidence_real {K n : ℕ} (g : CGraph K) (v : Fin (n + 1) → Fin K → ℝ) :
    evidence g (asLog v) = ∑ p : Fin (n + 1) → Fin K, pathPrior g p * exp (∑ t, v t (p t)) :=
  Finset.sum_congr rfl fun p _ => pathWeight_real g v p

theorem evidence_prior {K n : ℕ} (g : CGraph K) :
    (evidence g fun (_ : Fin (n + 1)) (_ : Fin K) => ((0 : ℝ) : LogR)) =
      ∑ p : Fin (n + 1) → Fin K, pathPrior g p := by
  refine (evidence_real g fun _ _ => 0).trans (Finset.sum_congr rfl fun p _ => ?_)
  rw [Finset.sum_const_zero, exp_zero, mul_one]

/-- With finite scores the utterance has a positive probability when the graph has a path. -/
theorem evidence_pos_of_feasible {K n : ℕ} (g : CGraph K)
    (h : 0 < evidence g fun (_ : Fin (n + 1)) (_ : Fin K) => ((0 : ℝ) : LogR))
    (v : Fin (n + 1) → Fin K → ℝ) : 0 < evidence g (asLog v) := by
  rw [evidence_prior] at h
  obtain ⟨p, _, hp⟩ := Finset.exists_ne_zero_of_sum_ne_zero h.ne'
  rw [evidence_real]
  refine Finset.sum_pos' (fun q _ => mul_nonneg (pathPrior_nonneg g q) (exp_pos _).le) ⟨p, Finset.mem_univ _, ?_⟩
  exact mul_pos (lt_of_le_of_ne (pathPrior_nonneg g p) (Ne.symm hp)) (exp_pos _)

/-- The probability of a state at a frame. -/
noncomputable def gam {K n : ℕ} (g : CGraph K) (v : Fin (n + 1) → Fin K → ℝ) (t : Fin (n + 1))
    (s : Fin K) : ℝ :=
  (∑ p : Fin (n + 1) → Fin K, if p t = s then pathWeight g (asLog v) p else 0) / evidence g (asLog v)

theorem gam_nonneg {K n : ℕ} (g : CGraph K) (v : Fin (n + 1) → Fin K → ℝ) (t : Fin (n + 1))
    (s : Fin K) : 0 ≤ gam g v t s := by
  refine div_nonneg (Finset.sum_nonneg fun p _ => ?_)
    (Finset.sum_nonneg fun p _ => pathWeight_nonneg g _ p)
  split_ifs
  · exact pathWeight_nonneg g _ p
  · exact le_rfl

theorem hmmResps_eq {K n : ℕ} (g : CGraph K) (v : Fin (n + 1) → Fin K → ℝ)
    (h : 0 < evidence g (asLog v)) : hmmResps g v = .ok (gam g v) := by
  refine seqFin_ok _ _ fun t => seqFin_ok _ _ fun s => ?_
  rw [C11_state_posterior_is_marginal g (asLog v) h t s]
  rfl

/-- Sums weighted by the state posteriors are expectations over state sequences. -/
theorem sum_gam {K n : ℕ} (g : CGraph K) (v w : Fin (n + 1) → Fin K → ℝ) :
    ∑ t, ∑ s, gam g v t s * w t s =
      ∑ p : Fin (n + 1) → Fin K, pathWeight g (asLog v) p / evidence g (asLog v) * ∑ t, w t (p t) := by
  simp only [Finset.mul_sum]
  rw [Finset.sum_comm (s := (Finset.univ : Finset (Fin (n + 1) → Fin K)))]
  refine Finset.sum_congr rfl fun t _ => ?_
  unfold gam
  simp only [Finset.sum_div, Finset.sum_mul]
  rw [Finset.sum_comm]
  refine Finset.sum_congr rfl fun p _ => ?_
  rw [Finset.sum_eq_single (p t)]
  · rw [if_pos rfl]
  · intro s _ hs
    rw [if_neg (Ne.symm hs), zero_div, zero_mul]
  · intro h; exact absurd (Finset.mem_univ _) h

/-- The E-step inequality of an HMM. -/
theorem evidence_gain {K n : ℕ} (g : CGraph K) (v v' : Fin (n + 1) → Fin K → ℝ)
    (h : 0 < evidence g (asLog v)) :
    ∑ t, ∑ s, gam g v t s * (v' t s - v t s) ≤
      log (evidence g (asLog v')) - log (evidence g (asLog v)) := by
  rw [sum_gam g v fun t s => v' t s - v t s]
  simp only [pathWeight_real, evidence_real] at h ⊢
  refine le_trans (le_of_eq ?_) (log_sum_exp_gain (pathPrior g) (fun p => ∑ t, v t (p t))
    (fun p => ∑ t, v' t (p t)) (pathPrior_nonneg g) h)
  refine Finset.sum_congr rfl fun p _ => ?_
  rw [Finset.sum_sub_distrib]

/-- The expected score of the frames exceeds the log-probability of the utterance when the paths of
the graph have a total probability of at most one. -/
theorem expected_score_ge {K n : ℕ} (g : CGraph K) (v : Fin (n + 1) → Fin K → ℝ)
    (h : 0 < evidence g (asLog v))
    (h1 : (evidence g fun (_ : Fin (n + 1)) (_ : Fin K) => ((0 : ℝ) : LogR)) ≤ 1) :
    log (evidence g (asLog v)) ≤ ∑ t, ∑ s, v t s * gam g v t s := by
  have key := evidence_gain g v (fun _ _ => 0) h
  have h0 : log (evidence g (asLog fun (_ : Fin (n + 1)) (_ : Fin K) => (0 : ℝ))) ≤ 0 :=
    log_nonpos (Finset.sum_nonneg fun p _ => pathWeight_nonneg g _ p) h1
  have e : ∑ t, ∑ s, gam g v t s * (0 - v t s) = -∑ t, ∑ s, v t s * gam g v t s := by
    simp only [zero_sub, mul_neg, Finset.sum_neg_distrib]
    congr 1
    exact Finset.sum_congr rfl fun t _ => Finset.sum_congr rfl fun s _ => mul_comm _ _
  rw [e] at key
  linarith

/-- In a graph whose initial, transition and final probabilities are sub-stochastic the paths have
a total probability of at most one. -/
theorem paths_le_one {K n : ℕ} (g : CGraph K) (hi : ∑ s, lexp (g.init s) ≤ 1)
    (ht : ∀ s, ∑ s', lexp (g.trans s s') ≤ 1) (hf : ∀ s, lexp (g.final s) ≤ 1) :
    (evidence g fun (_ : Fin (n + 1)) (_ : Fin K) => ((0 : ℝ) : LogR)) ≤ 1 := by
  set z : Fin (n + 1) → Frame K := fun _ _ => ((0 : ℝ) : LogR) with hz
  have hz1 : ∀ t s, lexp (z t s) = 1 := fun t s => by rw [hz, lexp_coe, exp_zero]
  have hB : ∀ t s, chainB (gM g z) (gB g) t s ≤ 1 := by
    intro t
    induction t using Fin.reverseInduction with
    | last => intro s; unfold chainB; rw [Fin.reverseInduction_last]; exact hf s
    | cast t ih =>
      intro s
      rw [chainB_castSucc]
      refine le_trans (Finset.sum_le_sum fun y _ => ?_) (ht s)
      have : gM g z t s y = lexp (g.trans s y) := by
        show lexp (g.trans s y) * lexp (z t.succ y) = _
        rw [hz1 t.succ y, mul_one]
      rw [this]
      exact mul_le_of_le_one_right (lexp_nonneg _) (ih y)
  have e : evidence g z = ∑ s, gA g z s * chainB (gM g z) (gB g) 0 s := by
    unfold evidence
    simp only [← sum_chainW_start, ← chainW_eq_pathWeight]
    rw [Finset.sum_comm]
    simp only [Finset.sum_ite_eq, Finset.mem_univ, if_true]
  rw [e]
  refine le_trans (Finset.sum_le_sum fun s _ => ?_) hi
  have : gA g z s = lexp (g.init s) := by
    show lexp (z 0 s) * lexp (g.init s) = _
    rw [hz1 0 s, one_mul]
  rw [this]
  exact mul_le_of_le_one_right (lexp_nonneg _) (hB 0 s)

/-! ## Training -/

section
variable {S : ℕ} (g : CGraph S) (inner : SetModel X S) (V : inner.State → Prop) (XV : X → Prop)

/-- The scores of an utterance. -/
noncomputable def scoresOf (st : inner.State) (a : ℝ) (u : Utt X) : Fin (u.1 + 1) → Fin S → ℝ :=
  fun t s => a * valueOf 0 (inner.llh st (u.2 t)) s

theorem hmmLlhs_eq (hin : Lawful inner V XV) (st : inner.State) (hv : V st) (a : ℝ) (u : Utt X)
    (hu : ∀ t, XV (u.2 t)) : hmmLlhs inner st a u = .ok (scoresOf inner st a u) := by
  refine seqFin_ok _ _ fun t => ?_
  obtain ⟨v, h⟩ := hin.llh_ok st (u.2 t) hv (hu t)
  unfold scoresOf
  rw [h]
  rfl

theorem hmmRows_eq (hin : Lawful inner V XV) (st : inner.State) (hv : V st) (a : ℝ) (u : Utt X)
    (hu : ∀ t, XV (u.2 t)) (hf : Feasible g u) :
    hmmRows g inner st a u =
      .ok (List.ofFn fun t => (u.2 t, fun s => a * gam g (scoresOf inner st a u) t s)) := by
  unfold hmmRows
  rw [hmmLlhs_eq inner V XV hin st hv a u hu, ok_bind,
    hmmResps_eq g _ (evidence_pos_of_feasible g hf _)]
  rfl

theorem hmmExpLlh_eq (hin : Lawful inner V XV) (st : inner.State) (hv : V st) (a : ℝ) (u : Utt X)
    (hu : ∀ t, XV (u.2 t)) (hf : Feasible g u) :
    hmmExpLlh g inner st a u =
      .ok (∑ t, ∑ s, scoresOf inner st a u t s * gam g (scoresOf inner st a u) t s) := by
  unfold hmmExpLlh
  rw [hmmLlhs_eq inner V XV hin st hv a u hu, ok_bind,
    hmmResps_eq g _ (evidence_pos_of_feasible g hf _)]
  rfl

theorem sum_flatten_map {α β : Type} (l : List β) (r : β → List α) (f : α → ℝ) :
    (((l.map r).flatten).map f).sum = (l.map fun b => ((r b).map f).sum).sum := by
  induction l with
  | nil => rfl
  | cons b l ih => rw [List.map_cons, List.flatten_cons, List.map_append, List.sum_append, ih, List.map_cons,
      List.sum_cons]

theorem hmm_step (hin : Lawful inner V XV) (st : inner.State) (hv : V st) (a : ℝ) (ha : 0 ≤ a)
    (utts : List (Utt X)) (hu : ∀ u ∈ utts, (∀ t, XV (u.2 t)) ∧ Feasible g u) (scale l : ℝ)
    (hs : 0 ≤ scale) (h0 : 0 < l) (h1 : l ≤ 1) :
    ∃ st', hmmStep g inner st a utts scale l = .ok st' ∧ V st' ∧
      hmmObjective g inner a utts scale st ≤ hmmObjective g inner a utts scale st' := by
  set rowsOf : Utt X → List (X × (Fin S → ℝ)) := fun u =>
    List.ofFn fun t => (u.2 t, fun s => a * gam g (scoresOf inner st a u) t s) with hrows
  obtain ⟨st', e, v, gn⟩ := hin.step_ok st ((utts.map rowsOf).flatten) scale l hv (by
    intro r h
    obtain ⟨L, hL, hr⟩ := List.mem_flatten.1 h
    obtain ⟨u, hu', rfl⟩ := List.mem_map.1 hL
    rw [hrows, List.mem_ofFn] at hr
    obtain ⟨t, rfl⟩ := hr
    exact ⟨(hu u hu').1 t, fun s => mul_nonneg ha (gam_nonneg g _ t s)⟩) hs h0 h1
  refine ⟨st', ?_, v, ?_⟩
  · unfold hmmStep
    rw [mapM_ok_map _ _ utts fun u h => hmmRows_eq g inner V XV hin st hv a u (hu u h).1 (hu u h).2]
    exact e
  · have key : ((utts.map rowsOf).flatten.map fun r =>
          ∑ m, r.2 m * (valueOf 0 (inner.llh st' r.1) m - valueOf 0 (inner.llh st r.1) m)).sum ≤
        (utts.map fun u => log (evidence g (asLog (scoresOf inner st' a u))) -
          log (evidence g (asLog (scoresOf inner st a u)))).sum := by
      rw [sum_flatten_map]
      refine sum_map_le utts _ _ fun u h => ?_
      refine le_trans (le_of_eq ?_) (evidence_gain g (scoresOf inner st a u) (scoresOf inner st' a u)
        (evidence_pos_of_feasible g (hu u h).2 _))
      rw [hrows, List.map_ofFn, List.sum_ofFn]
      refine Finset.sum_congr rfl fun t _ => Finset.sum_congr rfl fun s _ => ?_
      unfold scoresOf
      ring
    have key' := mul_le_mul_of_nonneg_left key hs
    rw [sum_map_sub', mul_sub] at key'
    have o : ∀ st, hmmObjective g inner a utts scale st =
        scale * (utts.map fun u => log (evidence g (asLog (scoresOf inner st a u)))).sum -
          valueOf 0 (inner.kl st) := fun st => rfl
    rw [o, o]
    linarith

end

end Verif.VB
