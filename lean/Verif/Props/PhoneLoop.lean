import Verif.Model.PhoneLoop
import Verif.Spec.PhoneLoop
import Verif.Props.HMM
import Verif.Props.KL
import Verif.Props.StickBreaking
import Verif.Props.DistsUpdate

/-!
# Phone loops: C19, C20, C21, C22, C69
-/

namespace Verif.Props

open Verif Verif.PhoneLoop Verif.Spec Verif.Dists Verif.DistSpec

variable {n P : ℕ}

/-! ## Closed form of the refresh -/

lemma foldl_setEntry (starts : Fin P → Fin n) (hinj : Function.Injective starts) (e : Fin n)
    (v : Fin P → LogR) (l : List (Fin P)) (T : TMat n) (a d : Fin n) :
    l.foldl (fun T j => setEntry T e (starts j) (v j)) T a d
      = if a = e then
          (if h : ∃ j ∈ l, starts j = d then v h.choose else T e d)
        else T a d := by
  induction l generalizing T with
  | nil => by_cases h : a = e <;> simp [h]
  | cons j l ih =>
    rw [List.foldl_cons, ih]
    by_cases ha : a = e
    · subst ha
      rw [if_pos rfl, if_pos rfl]
      by_cases h : ∃ j ∈ l, starts j = d
      · have h' : ∃ i ∈ j :: l, starts i = d := by
          obtain ⟨i, hi, hd⟩ := h
          exact ⟨i, List.mem_cons_of_mem _ hi, hd⟩
        rw [dif_pos h, dif_pos h']
        congr 1
        exact hinj (h.choose_spec.2.trans h'.choose_spec.2.symm)
      · rw [dif_neg h]
        unfold setEntry
        rw [Function.update_self]
        by_cases hd : d = starts j
        · have h' : ∃ i ∈ j :: l, starts i = d := ⟨j, List.mem_cons_self, hd.symm⟩
          have hc : h'.choose = j := hinj (h'.choose_spec.2.trans hd)
          rw [dif_pos h', hc]
          subst hd
          rw [Function.update_self]
        · rw [Function.update_of_ne hd, dif_neg]
          rintro ⟨i, hi, hid⟩
          rw [List.mem_cons] at hi
          rcases hi with rfl | hi
          · exact hd hid.symm
          · exact h ⟨i, hi, hid⟩
    · rw [if_neg ha, if_neg ha]
      unfold setEntry
      rw [Function.update_of_ne ha]

lemma refreshEnd_start (starts : Fin P → Fin n) (hinj : Function.Injective starts) (w : Fin P → ℝ)
    (T : TMat n) (e : Fin n) (j : Fin P) :
    refreshEnd starts w T e e (starts j) = llog (1 - lexp (T e e)) + (w j : LogR) := by
  unfold refreshEnd
  rw [foldl_setEntry starts hinj, if_pos rfl]
  have h : ∃ i ∈ List.finRange P, starts i = starts j := ⟨j, List.mem_finRange _, rfl⟩
  rw [dif_pos h]
  have : h.choose = j := hinj h.choose_spec.2
  rw [this]

lemma refreshEnd_other (starts : Fin P → Fin n) (hinj : Function.Injective starts) (w : Fin P → ℝ)
    (T : TMat n) (e a d : Fin n) (h : a ≠ e ∨ ∀ j, starts j ≠ d) :
    refreshEnd starts w T e a d = T a d := by
  unfold refreshEnd
  rw [foldl_setEntry starts hinj]
  by_cases ha : a = e
  · rw [if_pos ha, dif_neg, ha]
    rintro ⟨j, _, hj⟩
    rcases h with h | h
    · exact h ha
    · exact h j hj
  · rw [if_neg ha]

lemma refresh_other (starts : Fin P → Fin n) (hinj : Function.Injective starts) (w : Fin P → ℝ) :
    ∀ (ends : List (Fin n)) (T : TMat n) (a d : Fin n), (a ∉ ends ∨ ∀ j, starts j ≠ d) →
      refresh starts ends w T a d = T a d := by
  intro ends
  induction ends with
  | nil => intro T a d _; rfl
  | cons e ends ih =>
    intro T a d h
    show refresh starts ends w (refreshEnd starts w T e) a d = _
    rw [ih, refreshEnd_other starts hinj]
    · exact h.imp_left fun h h' => h (h' ▸ List.mem_cons_self)
    · exact h.imp_left fun h h' => h (List.mem_cons_of_mem _ h')

lemma refresh_start (starts : Fin P → Fin n) (hinj : Function.Injective starts) (w : Fin P → ℝ) :
    ∀ (ends : List (Fin n)) (T : TMat n), (∀ e ∈ ends, ∀ j, starts j ≠ e) →
      ∀ e ∈ ends, ∀ j, refresh starts ends w T e (starts j)
        = llog (1 - lexp (T e e)) + (w j : LogR) := by
  intro ends
  induction ends with
  | nil => intro T _ e he; simp at he
  | cons x ends ih =>
    intro T hne e he j
    show refresh starts ends w (refreshEnd starts w T x) e (starts j) = _
    have hself : refreshEnd starts w T x e e = T e e :=
      refreshEnd_other starts hinj w T x e e (.inr fun j => hne e he j)
    by_cases hx : e ∈ ends
    · rw [ih _ (fun a ha => hne a (List.mem_cons_of_mem _ ha)) e hx j, hself]
    · have : e = x := by simpa [hx] using he
      subst this
      rw [refresh_other starts hinj w ends _ _ _ (.inl hx), refreshEnd_start starts hinj]

/-! ## C19 -/

/-- **C19 (one refresh).** When no phone end is a phone start: every self-loop is unchanged, every
transition from a phone end to a phone start has probability `(1 − self-loop) · weight`, everything
else is unchanged, and the outgoing probability from a phone end to all phones is at most one minus
the self-loop when the weights sum to at most one. -/
theorem C19_refresh (starts : Fin P → Fin n) (hinj : Function.Injective starts)
    (ends : List (Fin n)) (hdisj : ∀ e ∈ ends, ∀ j, starts j ≠ e) (w : Fin P → ℝ) (T : TMat n)
    (hT : ∀ e ∈ ends, lexp (T e e) ≤ 1) :
    (∀ s, refresh starts ends w T s s = T s s) ∧
    (∀ e ∈ ends, ∀ j, lexp (refresh starts ends w T e (starts j))
      = (1 - lexp (T e e)) * Real.exp (w j)) ∧
    (∀ a d, a ∉ ends ∨ (∀ j, starts j ≠ d) → refresh starts ends w T a d = T a d) ∧
    (∑ j, Real.exp (w j) ≤ 1 → ∀ e ∈ ends,
      ∑ j, lexp (refresh starts ends w T e (starts j)) ≤ 1 - lexp (T e e)) := by
  have h2 : ∀ e ∈ ends, ∀ j, lexp (refresh starts ends w T e (starts j))
      = (1 - lexp (T e e)) * Real.exp (w j) := by
    intro e he j
    rw [refresh_start starts hinj w ends T hdisj e he j, lexp_add,
      lexp_llog (by have := hT e he; linarith), lexp_coe]
  refine ⟨fun s => ?_, h2, refresh_other starts hinj w ends T, fun hw e he => ?_⟩
  · apply refresh_other starts hinj w ends T
    by_cases hs : s ∈ ends
    · exact .inr fun j => hdisj s hs j
    · exact .inl hs
  · rw [Finset.sum_congr rfl fun j _ => h2 e he j, ← Finset.mul_sum]
    exact mul_le_of_le_one_right (by have := hT e he; linarith) hw

/-- **C19 (history).** The transitions after any non-empty history of weight updates are those
obtained by refreshing the initial transitions once with the last weights. -/
theorem C19_history (starts : Fin P → Fin n) (hinj : Function.Injective starts)
    (ends : List (Fin n)) (hdisj : ∀ e ∈ ends, ∀ j, starts j ≠ e) (T : TMat n)
    (history : List (Fin P → ℝ)) (w : Fin P → ℝ) :
    refreshAll starts ends T (history ++ [w]) = refresh starts ends w T := by
  have key : ∀ (w w' : Fin P → ℝ) (T : TMat n),
      refresh starts ends w (refresh starts ends w' T) = refresh starts ends w T := by
    intro w w' T
    funext a d
    by_cases ha : a ∈ ends
    · by_cases hd : ∃ j, starts j = d
      · obtain ⟨j, rfl⟩ := hd
        rw [refresh_start starts hinj w ends _ hdisj a ha j,
          refresh_start starts hinj w ends _ hdisj a ha j,
          refresh_other starts hinj w' ends T a a (.inr fun j => hdisj a ha j)]
      · push Not at hd
        rw [refresh_other starts hinj w ends _ a d (.inr hd),
          refresh_other starts hinj w' ends _ a d (.inr hd),
          refresh_other starts hinj w ends _ a d (.inr hd)]
    · rw [refresh_other starts hinj w ends _ a d (.inl ha),
          refresh_other starts hinj w' ends _ a d (.inl ha),
          refresh_other starts hinj w ends _ a d (.inl ha)]
  induction history generalizing T with
  | nil => rfl
  | cons w' history ih =>
    show refreshAll starts ends (refresh starts ends w' T) (history ++ [w]) = _
    rw [ih, key]

/-- **C19 (weights of a `Categorical`).** With Dirichlet weights the outgoing probability never
exceeds one minus the self-loop, whatever the training history. -/
theorem C19_categorical_rows (starts : Fin P → Fin n) (hinj : Function.Injective starts)
    (ends : List (Fin n)) (hdisj : ∀ e ∈ ends, ∀ j, starts j ≠ e) (T : TMat n)
    (hT : ∀ e ∈ ends, lexp (T e e) ≤ 1) (history : List (List ℝ)) (hne : history ≠ [])
    (hlen : ∀ c ∈ history, c.length = P) (hpos : ∀ c ∈ history, ∀ x ∈ c, 0 < x) :
    ∀ e ∈ ends, ∑ j, lexp (refreshAll starts ends T (history.map unigramLogWeights) e (starts j))
      ≤ 1 - lexp (refreshAll starts ends T (history.map unigramLogWeights) e e) := by
  obtain ⟨init, c, rfl⟩ := List.eq_nil_or_concat history |>.resolve_left hne
  simp only [List.concat_eq_append] at *
  intro e he
  rw [List.map_append, List.map_singleton, C19_history starts hinj ends hdisj]
  obtain ⟨h1, _, _, h4⟩ := C19_refresh starts hinj ends hdisj (unigramLogWeights c) T hT
  rw [h1]
  refine h4 ?_ e he
  have hc := hlen c (by simp)
  subst hc
  have := (C41_expected_log_weights_subnormalised c (hpos c (by simp))).1
  rw [List.sum_ofFn] at this
  exact this

/-- Two phones with states `0 → 1` and `2 → 3`; self-loops on the ends have probability 1/2. -/
noncomputable def demoT : TMat 4 := fun a d => if a = d then ((Real.log (1 / 2) : ℝ) : LogR) else ⊥

lemma demoT_loop (e : Fin 4) : lexp (demoT e e) = 1 / 2 := by
  unfold demoT
  rw [if_pos rfl, lexp_coe, Real.exp_log (by norm_num)]

example : lexp (refreshAll ![0, 2] [1, 3] demoT
      [fun _ => 0, fun _ => 5, fun _ => Real.log (1 / 2)] 1 2) = 1 / 4 ∧
    refreshAll ![0, 2] [1, 3] demoT [fun _ => 0, fun _ => 5, fun _ => Real.log (1 / 2)] 1 1
      = demoT 1 1 := by
  have hinj : Function.Injective (![0, 2] : Fin 2 → Fin 4) := by decide
  have hdisj : ∀ e ∈ ([1, 3] : List (Fin 4)), ∀ j : Fin 2, (![0, 2] : Fin 2 → Fin 4) j ≠ e := by
    decide
  have := C19_history ![0, 2] hinj [1, 3] hdisj demoT [fun _ => 0, fun _ => 5]
    (fun _ => Real.log (1 / 2))
  simp only [List.cons_append, List.nil_append] at this
  rw [this]
  obtain ⟨h1, h2, _⟩ := C19_refresh ![0, 2] hinj [1, 3] hdisj (fun _ => Real.log (1 / 2)) demoT
    (fun e _ => by rw [demoT_loop]; norm_num)
  refine ⟨?_, h1 1⟩
  have := h2 1 (by decide) 1
  rw [show (![0, 2] : Fin 2 → Fin 4) 1 = 2 from rfl] at this
  rw [this, demoT_loop, Real.exp_log (by norm_num)]
  norm_num

/-! ## C20 -/

/-- **C20 (what happens).** When the end of a phone is its own start, its self-loop probability is
replaced by `(1 − self-loop) · weight`. -/
theorem C20_single_state_loop (starts : Fin P → Fin n) (hinj : Function.Injective starts)
    (w : Fin P → ℝ) (T : TMat n) (j : Fin P) (hT : lexp (T (starts j) (starts j)) ≤ 1) :
    lexp (refresh starts [starts j] w T (starts j) (starts j))
      = (1 - lexp (T (starts j) (starts j))) * Real.exp (w j) := by
  show lexp (refreshEnd starts w T (starts j) (starts j) (starts j)) = _
  rw [refreshEnd_start starts hinj, lexp_add, lexp_llog (by linarith), lexp_coe]

/-- **C20 fails.** Two single-state phones with self-loop probability 1/2 and equal weights: the
self-loop becomes 1/4, and refreshing once more with the same weights gives yet another value, 3/8. -/
theorem C20_fails : ∃ (starts : Fin 2 → Fin 2) (T : TMat 2) (w : Fin 2 → ℝ),
    Function.Injective starts ∧ (∀ e, lexp (T e e) = 1 / 2) ∧ (∀ j, Real.exp (w j) = 1 / 2) ∧
    lexp (refreshAll starts [starts 0] T [w] (starts 0) (starts 0)) = 1 / 4 ∧
    lexp (refreshAll starts [starts 0] T [w, w] (starts 0) (starts 0)) = 3 / 8 := by
  have hw : Real.exp (Real.log (1 / 2)) = 1 / 2 := Real.exp_log (by norm_num)
  refine ⟨id, fun _ _ => ((Real.log (1 / 2) : ℝ) : LogR), fun _ => Real.log (1 / 2),
    Function.injective_id, fun _ => by rw [lexp_coe, hw], fun _ => hw, ?_, ?_⟩
  · have := C20_single_state_loop id Function.injective_id (fun _ => Real.log (1 / 2))
      (fun _ _ : Fin 2 => ((Real.log (1 / 2) : ℝ) : LogR)) 0 (by rw [lexp_coe, hw]; norm_num)
    refine this.trans ?_
    rw [lexp_coe, hw]; norm_num
  · have h1 := C20_single_state_loop id Function.injective_id (fun _ => Real.log (1 / 2))
      (fun _ _ : Fin 2 => ((Real.log (1 / 2) : ℝ) : LogR)) 0 (by rw [lexp_coe, hw]; norm_num)
    rw [lexp_coe, hw] at h1
    have h2 := C20_single_state_loop id Function.injective_id (fun _ => Real.log (1 / 2))
      (refresh id [id 0] (fun _ => Real.log (1 / 2))
        (fun _ _ : Fin 2 => ((Real.log (1 / 2) : ℝ) : LogR))) 0 (by rw [h1]; norm_num)
    refine h2.trans ?_
    rw [h1, hw]; norm_num

/-- **C20, the part that holds**: the self-loop of a state that is not a phone start is never
changed, in any history. -/
theorem C20_partial (starts : Fin P → Fin n) (hinj : Function.Injective starts)
    (ends : List (Fin n)) (s : Fin n) (hs : ∀ j, starts j ≠ s) (T : TMat n)
    (history : List (Fin P → ℝ)) : refreshAll starts ends T history s s = T s s := by
  induction history generalizing T with
  | nil => rfl
  | cons w history ih =>
    show refreshAll starts ends (refresh starts ends w T) history s s = _
    rw [ih, refresh_other starts hinj w ends T s s (.inr hs)]

example : refreshAll ![0, 2] [1, 3, 2] demoT [fun _ => 0, fun _ => 5] 3 3 = demoT 3 3 :=
  C20_partial ![0, 2] (by decide) _ 3 (by decide) _ _

/-! ## C21 -/

/-- **C21 (meaning).** The count of phone `j` computed from the forward-backward posteriors is the
expectation, over the state sequences weighted by their probability, of the number of times the
sequence enters the phone. -/
theorem C21_counts_are_expected_entries {m : ℕ} (starts : Fin P → Fin n) (ends : List (Fin n))
    (hnd : ends.Nodup) (g : CGraph n) (llhs : Fin (m + 1) → Frame n) (hev : 0 < evidence g llhs)
    (j : Fin P) :
    phoneCounts starts ends (fun s => (statePosts g llhs 0 s).getD 0) (transPosts g llhs) j
      = ∑ p : Fin (m + 1) → Fin n,
          pathWeight g llhs p / evidence g llhs * (entries ends (starts j) p : ℝ) := by
  unfold phoneCounts
  dsimp only
  rw [C11_state_posterior_is_marginal g llhs hev, Option.getD_some]
  simp only [C12_transition_posterior_is_marginal g llhs hev]
  rw [← List.sum_toFinset _ hnd]
  have e1 : ∀ p : Fin (m + 1) → Fin n, pathWeight g llhs p / evidence g llhs
      * (entries ends (starts j) p : ℝ)
      = (∑ e ∈ ends.toFinset, ∑ t : Fin m,
          (if p t.castSucc = e ∧ p t.succ = starts j then pathWeight g llhs p else 0)
            / evidence g llhs)
        + (if p 0 = starts j then pathWeight g llhs p else 0) / evidence g llhs := by
    intro p
    unfold entries
    rw [Finset.sum_comm]
    have e2 : ∀ t : Fin m, ∑ e ∈ ends.toFinset,
        (if p t.castSucc = e ∧ p t.succ = starts j then pathWeight g llhs p else 0)
            / evidence g llhs
        = pathWeight g llhs p / evidence g llhs
          * (if p t.castSucc ∈ ends ∧ p t.succ = starts j then 1 else 0) := by
      intro t
      by_cases hd : p t.succ = starts j
      · simp only [hd, and_true]
        rw [← Finset.sum_div, Finset.sum_ite_eq]
        by_cases hm : p t.castSucc ∈ ends
        · simp [hm]
        · simp [hm]
      · simp [hd]
    simp only [e2]
    rw [← Finset.mul_sum, Finset.sum_boole]
    push_cast
    by_cases h0 : p 0 = starts j
    · simp only [h0, if_true]; ring
    · simp only [h0, if_false]; ring
  simp only [e1]
  rw [Finset.sum_add_distrib, Finset.sum_comm (s := Finset.univ) (t := ends.toFinset)]
  congr 1
  · refine Finset.sum_congr rfl fun e _ => ?_
    rw [Finset.sum_comm]
    exact Finset.sum_congr rfl fun t _ => by rw [Finset.sum_div]
  · rw [Finset.sum_div]

/-- **C21 (non-negative).** Counts of non-negative posteriors are non-negative. -/
theorem C21_counts_nonneg {m : ℕ} (starts : Fin P → Fin n) (ends : List (Fin n))
    (r0 : Fin n → ℝ) (x : Fin m → Fin n → Fin n → ℝ) (h0 : ∀ s, 0 ≤ r0 s)
    (hx : ∀ t a b, 0 ≤ x t a b) (j : Fin P) : 0 ≤ phoneCounts starts ends r0 x j := by
  unfold phoneCounts
  refine add_nonneg (List.sum_nonneg fun y hy => ?_) (h0 _)
  rw [List.mem_map] at hy
  obtain ⟨e, _, rfl⟩ := hy
  exact Finset.sum_nonneg fun t _ => hx t e _

/-- **C21 (training over a sequence of utterances).** Whatever the order in which aligned and free
utterances come, an aligned utterance contributes zero statistics to the weights and a free one the
statistics of its own counts only. What an earlier evaluation left in the cache can only reach the first
utterance. -/
theorem C21_training_statistics (starts : Fin P → Fin n) (ends : List (Fin n))
    (us : List (PUtt n)) :
    (elboCountsAll starts ends none us = us.map fun u =>
      if u.aligned then List.ofFn (fun _ : Fin P => (0 : ℝ))
      else catStats (List.ofFn (phoneCounts starts ends u.resps0 u.trans))) ∧
    ∀ old u, (elboCountsAll starts ends old (u :: us)).tail = elboCountsAll starts ends none us := by
  refine ⟨?_, fun old u => rfl⟩
  induction us with
  | nil => rfl
  | cons u us ih =>
    show _ :: elboCountsAll starts ends none us = _
    rw [ih, List.map_cons]
    congr 1
    unfold elboCounts cacheAfter accumulateCounts
    dsimp only
    by_cases h : u.aligned = true
    · rw [if_pos h, if_pos h]; rfl
    · rw [if_neg h, if_neg h]

/-- **C21 (limit).** The zeros rely on the cache having been cleared: if the model was evaluated
without alignment before (and the cache not cleared), an aligned utterance re-uses the transition
posteriors of the previous one. -/
theorem C21_stale_cache (starts : Fin P → Fin n) (ends : List (Fin n)) (u v : PUtt n)
    (hu : u.aligned = false) (hv : v.aligned = true) :
    (elboCounts starts ends (some (cacheAfter none u)) v).1
      = catStats (List.ofFn (phoneCounts starts ends v.resps0 u.trans)) := by
  unfold elboCounts cacheAfter accumulateCounts
  simp [hu, hv]

/-- **C21 (update).** A full update of Dirichlet weights by these statistics adds the counts to the
prior concentrations. -/
theorem C21_weight_update (hP : 0 < P) (prior post : List ℝ) (h1 : prior.length = P)
    (h2 : post.length = P) (x : Fin P → ℝ) :
    natGradUpdate dirNatural dirFromNatural prior post (catStats (List.ofFn x)) 1
      = .ok (List.ofFn fun j : Fin P => prior.getD j 0 + x j) := by
  have h := C33_dirichlet_update_adds_counts P hP prior post [((1 : ℝ), List.ofFn x)] h1 h2
    (by intro r hr; simp at hr; subst hr; simp)
  have e : wsum P ([((1 : ℝ), List.ofFn x)].map fun r => (r.1, catStats r.2))
      = catStats (List.ofFn x) := by
    have hl : (catStats (List.ofFn x)).length = P := by
      simp [catStats]; omega
    simp only [List.map_cons, List.map_nil, wsum, List.foldl_cons, List.foldl_nil]
    apply List.ext_getElem
    · simp [vadd, vsmul, hl]
    · intro i a b
      simp [vadd, vsmul]
  rw [e] at h
  rw [h]
  congr 1
  apply List.ext_getElem (by simp)
  intro i a b
  simp only [List.length_map, List.length_range] at a
  simp [first, a]

-- one phone of two states, two frames: the phone is entered once
example : ∑ e ∈ ({1} : Finset (Fin 2)), (entries [1] (0 : Fin 2) (![0, 1] : Fin 2 → Fin 2)) = 1 := by
  decide

example : elboCountsAll (![0, 2] : Fin 2 → Fin 4) [1, 3] none
    [⟨fun _ => 1 / 4, 1, fun _ _ _ => 1 / 16, false⟩, ⟨fun _ => 1 / 4, 0, fun _ _ _ => 0, true⟩]
    = [catStats [1 / 16 + 1 / 16 + 1 / 4, 1 / 16 + 1 / 16 + 1 / 4], [0, 0]] := by
  rw [(C21_training_statistics _ _ _).1]
  simp [phoneCounts]

/-! ## C22 -/

lemma bigram_other (starts ends : Fin P → Fin n) (hs : Function.Injective starts)
    (w : Fin P → Fin P → ℝ) : ∀ (l : List (Fin P)) (T : TMat n) (a d : Fin n),
      ((∀ i ∈ l, ends i ≠ a) ∨ ∀ j, starts j ≠ d) →
      l.foldl (fun T i => refreshEnd starts (w i) T (ends i)) T a d = T a d := by
  intro l
  induction l with
  | nil => intro T a d _; rfl
  | cons i l ih =>
    intro T a d h
    rw [List.foldl_cons, ih _ _ _ (h.imp_left fun h i hi => h i (List.mem_cons_of_mem _ hi)),
      refreshEnd_other starts hs _ _ _ _ _ (h.imp_left fun h => (h i List.mem_cons_self).symm)]

lemma bigram_start (starts ends : Fin P → Fin n) (hs : Function.Injective starts)
    (he : Function.Injective ends) (hdisj : ∀ i j, starts j ≠ ends i)
    (w : Fin P → Fin P → ℝ) : ∀ (l : List (Fin P)) (T : TMat n) (i j : Fin P), i ∈ l →
      l.foldl (fun T i => refreshEnd starts (w i) T (ends i)) T (ends i) (starts j)
        = llog (1 - lexp (T (ends i) (ends i))) + (w i j : LogR) := by
  intro l
  induction l with
  | nil => intro T i j h; simp at h
  | cons k l ih =>
    intro T i j h
    rw [List.foldl_cons]
    by_cases hi : i ∈ l
    · rw [ih _ i j hi, refreshEnd_other starts hs _ _ _ _ _ (.inr fun j => hdisj i j)]
    · have : i = k := by simpa [hi] using h
      subst this
      rw [bigram_other starts ends hs w l _ _ _ (.inl fun k hk hki => hi (by have := he hki; rwa [this] at hk)),
        refreshEnd_start starts hs]

/-- The refresh of a bigram phone loop installs, from the end of phone `i` to the start of phone
`j`, entry `(i, j)` of the matrix it is given; self-loops of phone ends are unchanged. -/
theorem C22_bigram_entries (starts ends : Fin P → Fin n)
    (hs : Function.Injective starts) (he : Function.Injective ends)
    (hdisj : ∀ i j, starts j ≠ ends i) (w : Fin P → Fin P → ℝ) (T : TMat n)
    (hT : ∀ i, lexp (T (ends i) (ends i)) ≤ 1) (i : Fin P) :
    (∀ j, lexp (bigramRefresh starts ends w T (ends i) (starts j))
      = (1 - lexp (T (ends i) (ends i))) * Real.exp (w i j)) ∧
    bigramRefresh starts ends w T (ends i) (ends i) = T (ends i) (ends i) := by
  refine ⟨fun j => ?_, ?_⟩
  · unfold bigramRefresh
    rw [bigram_start starts ends hs he hdisj w _ T i j (List.mem_finRange i), lexp_add,
      lexp_llog (by have := hT i; linarith), lexp_coe]
  · exact bigram_other starts ends hs w _ T _ _ (.inr fun j => hdisj i j)

/-- **C22 (what is installed).** With a `CategoricalSet`, the transition from the end of phone `i` to
the start of phone `j` gets the expected log-weight of category `i` in the distribution of context
`j`: the transpose of the intended one. -/
theorem C22_bigram_installs_transpose (starts ends : Fin P → Fin n)
    (hs : Function.Injective starts) (he : Function.Injective ends)
    (hdisj : ∀ i j, starts j ≠ ends i) (c : Fin P → List ℝ) (T : TMat n)
    (hT : ∀ i, lexp (T (ends i) (ends i)) ≤ 1) (i j : Fin P) :
    lexp (bigramRefresh starts ends (setLogLikelihood c) T (ends i) (starts j))
      = (1 - lexp (T (ends i) (ends i))) * Real.exp (catExpLlh (c j) (oneHot P i)) :=
  (C22_bigram_entries starts ends hs he hdisj (setLogLikelihood c) T hT i).1 j

/-- The log-weight C22 asks for: category `j` in the distribution of context `i`. -/
noncomputable def bigramSpec (c : Fin P → List ℝ) (i j : Fin P) : ℝ := catExpLlh (c i) (oneHot P j)

/-- **C22 fails.** Two phones, contexts with concentrations `(1, 2)` and `(1, 1)`: the transition from
phone 0 to phone 1 gets `(1 − loop) · exp(−1)` instead of `(1 − loop) · exp(−1/2)`. -/
theorem C22_fails : ∃ (starts ends : Fin 2 → Fin 4) (c : Fin 2 → List ℝ) (T : TMat 4),
    Function.Injective starts ∧ Function.Injective ends ∧ (∀ i j, starts j ≠ ends i) ∧
    (∀ i, ∀ x ∈ c i, 0 < x) ∧ (∀ i, lexp (T (ends i) (ends i)) = 1 / 2) ∧
    lexp (bigramRefresh starts ends (setLogLikelihood c) T (ends 0) (starts 1))
      = (1 - 1 / 2) * Real.exp (-1) ∧
    bigramSpec c 0 1 = -(1 / 2) := by
  have hd1 : digamma 2 = digamma 1 + 1 := by
    have := digamma_add_one (x := 1) one_pos
    norm_num at this ⊢; exact this
  have hd2 : digamma 3 = digamma 2 + 1 / 2 := by
    have := digamma_add_one (x := 2) (by norm_num)
    norm_num at this ⊢; exact this
  have e : ∀ (a b : ℝ) (i : Fin 2), catExpLlh [a, b] (oneHot 2 i)
      = digamma (if i = 0 then a else b) - digamma (a + b) := by
    intro a b i
    rw [C41_expected_log_likelihood_eq _ _ (by simp) (by simp [oneHot])]
    fin_cases i <;> simp [oneHot]
  refine ⟨![0, 2], ![1, 3], ![[1, 2], [1, 1]], demoT, by decide, by decide, by decide, ?_, ?_, ?_, ?_⟩
  · intro i x hx
    fin_cases i <;> simp at hx <;> rcases hx with rfl | rfl <;> norm_num
  · intro i; exact demoT_loop _
  · rw [C22_bigram_installs_transpose ![0, 2] ![1, 3] (by decide) (by decide) (by decide) _ demoT
      (fun i => by rw [demoT_loop]; norm_num), demoT_loop]
    congr 2
    show catExpLlh [1, 1] (oneHot 2 0) = _
    rw [e]
    norm_num
    rw [hd1]; ring
  · show catExpLlh [1, 2] (oneHot 2 1) = _
    rw [e]
    norm_num
    rw [hd2]; ring

/-- **C22, the part that holds**: with a symmetric matrix of log-weights (for instance at the default
uniform initialisation) the intended transitions are installed. -/
theorem C22_symmetric_partial (starts ends : Fin P → Fin n)
    (hs : Function.Injective starts) (he : Function.Injective ends)
    (hdisj : ∀ i j, starts j ≠ ends i) (c : Fin P → List ℝ)
    (hsymm : ∀ i j, bigramSpec c i j = bigramSpec c j i) (T : TMat n)
    (hT : ∀ i, lexp (T (ends i) (ends i)) ≤ 1) (i j : Fin P) :
    lexp (bigramRefresh starts ends (setLogLikelihood c) T (ends i) (starts j))
      = (1 - lexp (T (ends i) (ends i))) * Real.exp (bigramSpec c i j) := by
  rw [C22_bigram_installs_transpose starts ends hs he hdisj c T hT, hsymm]
  rfl

/-- **C22 for hierarchical stick-breaking sets**: with a `SBCategoricalSet` the orientation is the
intended one, log-weight of category `j` in the distribution of context `i`. -/
theorem C22_stickbreaking_set [NeZero P] (starts ends : Fin P → Fin n)
    (hs : Function.Injective starts) (he : Function.Injective ends)
    (hdisj : ∀ i j, starts j ≠ ends i) (σ : Equiv.Perm (Fin P)) (c : Fin P → Fin P → ℝ × ℝ)
    (T : TMat n) (hT : ∀ i, lexp (T (ends i) (ends i)) ≤ 1) (i j : Fin P) :
    lexp (bigramRefresh starts ends (sbSetLogLikelihood σ c) T (ends i) (starts j))
      = (1 - lexp (T (ends i) (ends i))) * Real.exp (sbExpLlh σ (c i) (Pi.single j 1)) := by
  rw [(C22_bigram_entries starts ends hs he hdisj _ T hT i).1 j]
  congr 2
  unfold sbSetLogLikelihood sbExpLlh
  simp [Pi.single_apply]

/-- **C22 (counts).** The counts accumulated for context `i` and category `j` are the expected number
of transitions from the end of phone `i` to the start of phone `j`. -/
theorem C22_bigram_counts {m : ℕ} (starts ends : Fin P → Fin n) (g : CGraph n)
    (llhs : Fin (m + 1) → Frame n) (hev : 0 < evidence g llhs) (i j : Fin P) :
    bigramCounts starts ends (transPosts g llhs) i j
      = ∑ p : Fin (m + 1) → Fin n, pathWeight g llhs p / evidence g llhs
          * ((Finset.univ.filter fun t : Fin m =>
              p t.castSucc = ends i ∧ p t.succ = starts j).card : ℝ) := by
  unfold bigramCounts
  simp only [C12_transition_posterior_is_marginal g llhs hev, Finset.sum_div]
  rw [Finset.sum_comm]
  refine Finset.sum_congr rfl fun p _ => ?_
  rw [← Finset.sum_boole, Finset.mul_sum]
  refine Finset.sum_congr rfl fun t _ => ?_
  split_ifs <;> simp

/-- **C22 (training).** The statistics of an utterance without alignment update each context
separately: with a `CategoricalSet`, a full step adds to the prior concentration of phone `j` in
context `i` the expected number of transitions from the end of phone `i` to the start of phone `j`
(whatever the posterior was); with a stick-breaking set the statistics are these numbers. -/
theorem C22_bigram_refit (hP : 0 < P) (starts ends : Fin P → Fin n) (u : PUtt n)
    (hu : u.aligned = false) :
    (∃ rows, bigramAccumulate .categoricalSet starts ends (cacheAfter none u) = .ok rows ∧
      rows.length = P ∧
      ∀ (i : Fin P) (prior post : List ℝ), prior.length = P → post.length = P →
        natGradUpdate dirNatural dirFromNatural prior post (rows.getD i []) 1 =
          .ok ((List.range P).map fun j => prior.getD j 0 +
            if h : j < P then ∑ t, u.trans t (ends i) (starts ⟨j, h⟩) else 0)) ∧
    bigramAccumulate .sbCategoricalSet starts ends (cacheAfter none u) =
      .ok (List.ofFn fun i => List.ofFn fun j => ∑ t, u.trans t (ends i) (starts j)) := by
  unfold bigramAccumulate cacheAfter
  rw [if_neg (by simp [hu])]
  refine ⟨⟨_, rfl, by simp, fun i prior post h1 h2 => ?_⟩, rfl⟩
  set x : List ℝ := List.ofFn (bigramCounts starts ends u.trans i) with hx
  have hxl : x.length = P := by rw [hx]; simp
  have key := C33_dirichlet_update_adds_counts P hP prior post [((1 : ℝ), x)] h1 h2
    (by intro r hr; rw [List.mem_singleton.1 hr]; exact hxl)
  have hc : (catStats x).length = P := by
    rw [length_catStats _ (by intro h; rw [h] at hxl; simp at hxl; omega), hxl]
  have e : wsum P ([((1 : ℝ), x)].map fun r => (r.1, catStats r.2)) = catStats x := by
    show vadd (vsmul 1 (catStats x)) (List.replicate P 0) = _
    apply List.ext_getElem (by simp [vadd, vsmul, hc])
    intro k h3 h4
    simp [vadd, vsmul]
  have er : (List.map catStats (List.ofFn fun i : Fin P =>
      List.ofFn (bigramCounts starts ends u.trans i))).getD i [] = catStats x := by
    rw [List.getD_eq_getElem?_getD, List.getElem?_map, List.getElem?_ofFn]
    simp [hx]
  rw [e] at key
  rw [er, key]
  congr 1
  refine List.map_congr_left fun j hj => ?_
  have hj := List.mem_range.1 hj
  rw [dif_pos hj]
  congr 1
  simp [first, hx, List.getD_eq_getElem?_getD, hj, bigramCounts]

/-- Two phones of one state each, one transition, known to go from the first phone to the second. -/
example : ∃ rows, bigramAccumulate .categoricalSet (![0, 1] : Fin 2 → Fin 2) ![0, 1]
      (cacheAfter none ⟨fun i => if i = 0 then 1 else 0, 1,
        fun _ i j => if i = 0 ∧ j = 1 then 1 else 0, false⟩) = .ok rows ∧
    natGradUpdate dirNatural dirFromNatural [1, 1] [3, 5] (rows.getD 0 []) 1 = .ok [1, 2] ∧
    natGradUpdate dirNatural dirFromNatural [1, 1] [3, 5] (rows.getD 1 []) 1 = .ok [1, 1] := by
  obtain ⟨rows, h, -, hr⟩ := (C22_bigram_refit (by omega) (![0, 1] : Fin 2 → Fin 2) ![0, 1]
    ⟨fun i => if i = 0 then 1 else 0, 1, fun _ i j => if i = 0 ∧ j = 1 then 1 else 0, false⟩ rfl).1
  refine ⟨rows, h, ?_, ?_⟩
  · have := hr 0 [1, 1] [3, 5] rfl rfl
    rw [show ((0 : Fin 2) : ℕ) = 0 from rfl] at this
    rw [this]
    norm_num [List.range_succ]
  · have := hr 1 [1, 1] [3, 5] rfl rfl
    rw [show ((1 : Fin 2) : ℕ) = 1 from rfl] at this
    rw [this]
    norm_num [List.range_succ]

example : ∀ i j, bigramSpec (fun _ : Fin 2 => [1, 1]) i j = bigramSpec (fun _ => [1, 1]) j i := by
  have e : ∀ (i : Fin 2), catExpLlh [1, 1] (oneHot 2 i) = digamma 1 - digamma (1 + 1) := by
    intro i
    rw [C41_expected_log_likelihood_eq _ _ (by simp) (by simp [oneHot])]
    fin_cases i <;> simp [oneHot]
  intro i j
  unfold bigramSpec
  rw [e, e]

/-! ## C69 -/

/-- **C69 fails.** With a forced alignment (no transition posteriors in the cache) accumulating the
statistics of a bigram phone loop always raises: `TypeError` for a `CategoricalSet`,
`NotImplementedError` for a `SBCategoricalSet`. -/
theorem C69_fails (kind : CatSetKind) (starts ends : Fin P → Fin n) (u : PUtt n)
    (hu : u.aligned = true) :
    bigramAccumulate kind starts ends (cacheAfter none u)
      = .error (match kind with
        | .categoricalSet => .typeError
        | .sbCategoricalSet => .notImplemented) := by
  unfold bigramAccumulate cacheAfter
  rw [if_pos hu]
  cases kind <;> rfl

/-- **C69, the part that holds**: without alignment the accumulation succeeds, one row of statistics
per context. -/
theorem C69_partial (kind : CatSetKind) (starts ends : Fin P → Fin n) (u : PUtt n)
    (hu : u.aligned = false) :
    ∃ rows, bigramAccumulate kind starts ends (cacheAfter none u) = .ok rows ∧ rows.length = P := by
  unfold bigramAccumulate cacheAfter
  rw [if_neg (by simp [hu])]
  cases kind <;> simp

example : bigramAccumulate .categoricalSet (![0, 2] : Fin 2 → Fin 4) ![1, 3]
    (cacheAfter none ⟨fun _ => 1 / 4, 0, fun _ _ _ => 0, true⟩) = .error .typeError :=
  C69_fails .categoricalSet _ _ _ rfl

end Verif.Props
