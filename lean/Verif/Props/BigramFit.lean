import Verif.Props.PhoneLoop
import Verif.Props.WeightFit
import Verif.Props.MkLoop
import Verif.Lemmas.DigammaStep

/-!
# C183: what training makes of the Dirichlet weights of a bigram phone loop
-/

namespace Verif.Props

open Verif Verif.PhoneLoop Verif.Spec Verif.Dists Verif.DistSpec

variable {n E : ℕ}

/-- The expected number of times unit `j` follows unit `i` in the utterance. -/
noncomputable def follows {P : ℕ} (starts ends : Fin P → Fin n) (u : PUtt n) (i j : Fin P) : ℝ :=
  ∑ t, u.trans t (ends i) (starts j)

/-- One full step of the training of the weights on an utterance without alignment: the statistics, the concentrations of
every context, and the transitions afterwards. `s` is the strength of the uniform prior of `BigramPhoneLoop.create`
(`phoneloop.py` 129-133), `post` the posterior before. -/
structure BigramStep (starts ends : Fin (E + 1) → Fin n) (u : PUtt n) (s : ℝ) (post : Fin (E + 1) → List ℝ) (T T' : TMat n) :
    Prop where
  run : ∃ rows c, bigramAccumulate .categoricalSet starts ends (cacheAfter none u) = .ok rows ∧
    (∀ i : Fin (E + 1), natGradUpdate dirNatural dirFromNatural (List.replicate (E + 1) (1 / (E + 1 : ℝ) * s)) (post i)
      (rows.getD i []) 1 = .ok (c i)) ∧
    T' = bigramRefresh starts ends (setLogLikelihood c) T

/-- States of the units: one first and one last state per unit, all different. -/
structure UnitEnds {P : ℕ} (starts ends : Fin P → Fin n) : Prop where
  injStarts : Function.Injective starts
  injEnds : Function.Injective ends
  disj : ∀ i j, starts j ≠ ends i

/-- The step runs, for all utterances without alignment. -/
theorem bigramStep_exists (starts ends : Fin (E + 1) → Fin n) (u : PUtt n) (hu : u.aligned = false) (s : ℝ)
    (post : Fin (E + 1) → List ℝ) (hp : ∀ i, (post i).length = E + 1) (T : TMat n) :
    ∃ T', BigramStep starts ends u s post T T' := by
  obtain ⟨rows, h, -, hr⟩ := (C22_bigram_refit (Nat.succ_pos E) starts ends u hu).1
  exact ⟨_, ⟨rows, _, h, fun i => hr i _ (post i) (by simp) (hp i), rfl⟩⟩

theorem step_concentrations (starts ends : Fin (E + 1) → Fin n) (u : PUtt n) (hu : u.aligned = false) (s : ℝ)
    (post : Fin (E + 1) → List ℝ) (hp : ∀ i, (post i).length = E + 1) (rows : List (List ℝ)) (c : Fin (E + 1) → List ℝ)
    (h : bigramAccumulate .categoricalSet starts ends (cacheAfter none u) = .ok rows)
    (hc : ∀ i : Fin (E + 1), natGradUpdate dirNatural dirFromNatural (List.replicate (E + 1) (1 / (E + 1 : ℝ) * s))
      (post i) (rows.getD i []) 1 = .ok (c i)) (i : Fin (E + 1)) :
    c i = List.ofFn fun j => s / (E + 1) + follows starts ends u i j := by
  obtain ⟨rows', h', -, hr⟩ := (C22_bigram_refit (Nat.succ_pos E) starts ends u hu).1
  obtain rfl : rows = rows' := Except.ok.inj (h.symm.trans h')
  have e := Except.ok.inj ((hc i).symm.trans (hr i _ (post i) (by simp) (hp i)))
  rw [e]
  apply List.ext_getElem (by simp)
  intro k h1 h2
  have hk : k < E + 1 := by simpa using h1
  simp only [List.getElem_map, List.getElem_range, List.getElem_ofFn, List.getD_eq_getElem?_getD, List.getElem?_replicate,
    if_pos hk, Option.getD_some, dif_pos hk, follows]
  exact congrArg (· + _) (one_div_mul_eq_div _ _)

/-! Utterances whose state sequence is known, and transitions with loops of probability 1/2. -/

noncomputable def walk (p : ℕ → Fin n) (m : ℕ) : PUtt n :=
  ⟨fun i => if i = p 0 then 1 else 0, m, fun t a b => if a = p t ∧ b = p (t + 1) then 1 else 0, false⟩

theorem follows_walk {P : ℕ} (starts ends : Fin P → Fin n) (p : ℕ → Fin n) (m : ℕ) (i j : Fin P) :
    follows starts ends (walk p m) i j =
      ((Finset.univ.filter fun t : Fin m => ends i = p t ∧ starts j = p (t + 1)).card : ℝ) := by
  unfold follows walk
  exact Finset.sum_boole _ _

noncomputable def halfLoops (n : ℕ) : TMat n := fun a d => if a = d then ((Real.log (1 / 2) : ℝ) : LogR) else ⊥

theorem halfLoops_self (a : Fin n) : lexp (halfLoops n a a) = 1 / 2 := by
  unfold halfLoops
  rw [if_pos rfl, lexp_coe, Real.exp_log (by norm_num)]

def trioStarts : Fin 3 → Fin 6 := ![0, 2, 4]

def trioEnds : Fin 3 → Fin 6 := ![1, 3, 5]

theorem trio : UnitEnds trioStarts trioEnds := ⟨by decide, by decide, by decide⟩

/-- Three units of two states, unit 0 between the others (as a silence): `0 1 0 2 0 1 0 2 …`. -/
def betweenPath (t : ℕ) : Fin 6 := (![0, 1, 2, 3, 0, 1, 4, 5] : Fin 8 → Fin 6) ⟨t % 8, Nat.mod_lt _ (by omega)⟩

/-- The units one after the other: `0 1 2 0 …`. -/
def roundPath (t : ℕ) : Fin 6 := ⟨t % 6, Nat.mod_lt _ (by omega)⟩

/-- Two units in turn. -/
def turnPath (t : ℕ) : Fin 4 := ⟨t % 4, Nat.mod_lt _ (by omega)⟩

/-- **C183 (what is installed).** After the step, the probability of going from unit `i` to unit `j` depends on how often `i`
follows `j`. -/
theorem C183_installed (starts ends : Fin (E + 1) → Fin n) (hU : UnitEnds starts ends) (u : PUtt n)
    (hu : u.aligned = false) (s : ℝ) (post : Fin (E + 1) → List ℝ) (hp : ∀ i, (post i).length = E + 1) (T T' : TMat n)
    (hT : ∀ i, lexp (T (ends i) (ends i)) ≤ 1) (hs : BigramStep starts ends u s post T T') (i j : Fin (E + 1)) :
    lexp (T' (ends i) (starts j)) = (1 - lexp (T (ends i) (ends i)))
      * Real.exp (digamma (s / (E + 1) + follows starts ends u j i) - digamma (s + ∑ k, follows starts ends u j k)) ∧
    T' (ends i) (ends i) = T (ends i) (ends i) := by
  obtain ⟨rows, c, h, hc, rfl⟩ := hs.run
  refine ⟨?_, (C22_bigram_entries starts ends hU.injStarts hU.injEnds hU.disj _ T hT i).2⟩
  rw [C22_bigram_installs_transpose starts ends hU.injStarts hU.injEnds hU.disj c T hT,
    step_concentrations starts ends u hu s post hp rows c h hc j, oneHot_llh, Finset.sum_add_distrib]
  congr 4
  rw [Finset.sum_const, Finset.card_univ, Fintype.card_fin, nsmul_eq_mul]
  push_cast
  field_simp

/-- The probability of going from unit 0 to unit 1, which was seen, is computed from the zero count of the converse. -/
example : ∃ T', BigramStep trioStarts trioEnds (walk roundPath 6) 1 (fun _ => [1, 1, 1]) (halfLoops 6) T' ∧
    follows trioStarts trioEnds (walk roundPath 6) 0 1 = 1 ∧
    lexp (T' (trioEnds 0) (trioStarts 1)) = 1 / 2 * Real.exp (digamma (1 / 3) - digamma 2) := by
  obtain ⟨T', h⟩ := bigramStep_exists trioStarts trioEnds (walk roundPath 6) rfl 1 (fun _ => [1, 1, 1]) (fun _ => rfl)
    (halfLoops 6)
  have e : ∀ i j : Fin 3,
      (Finset.univ.filter fun t : Fin 6 => trioEnds i = roundPath t ∧ trioStarts j = roundPath (t + 1)).card =
        if j = i + 1 then 1 else 0 := by decide +kernel
  refine ⟨T', h, by rw [follows_walk, e]; simp, ?_⟩
  rw [(C183_installed _ _ trio _ rfl 1 _ (fun _ => rfl) _ _ (fun i => by rw [halfLoops_self]; norm_num) h 0 1).1,
    halfLoops_self]
  simp only [follows_walk, e]
  norm_num

/-- **C183 fails for the order.** If unit `j` follows unit `i` more often than `i` follows `j`, unit `j` being left at least
as often as `i`, and the two last states have the same loop, the step makes the rarer transition the more likely one. -/
theorem C183_reversed (starts ends : Fin (E + 1) → Fin n) (hU : UnitEnds starts ends) (u : PUtt n)
    (hu : u.aligned = false) (h0 : ∀ i j, 0 ≤ follows starts ends u i j) (s : ℝ) (hs0 : 0 < s)
    (post : Fin (E + 1) → List ℝ) (hp : ∀ i, (post i).length = E + 1) (T T' : TMat n)
    (hT : ∀ i, lexp (T (ends i) (ends i)) < 1) (hs : BigramStep starts ends u s post T T') (i j : Fin (E + 1))
    (hl : lexp (T (ends i) (ends i)) = lexp (T (ends j) (ends j)))
    (hij : follows starts ends u j i < follows starts ends u i j)
    (htot : ∑ k, follows starts ends u i k ≤ ∑ k, follows starts ends u j k) :
    lexp (T' (ends i) (starts j)) < lexp (T' (ends j) (starts i)) := by
  have hE : (0 : ℝ) < s / (E + 1) := by positivity
  have ht : ∀ i, 0 ≤ ∑ k, follows starts ends u i k := fun i => Finset.sum_nonneg fun k _ => h0 i k
  rw [(C183_installed starts ends hU u hu s post hp T T' (fun i => (hT i).le) hs i j).1,
    (C183_installed starts ends hU u hu s post hp T T' (fun i => (hT i).le) hs j i).1, hl]
  refine mul_lt_mul_of_pos_left (Real.exp_lt_exp.2 ?_) (by have := hT j; linarith)
  have h1 : digamma (s / (E + 1) + follows starts ends u j i) < digamma (s / (E + 1) + follows starts ends u i j) := by
    rw [← not_le, digamma_le_iff (by have := h0 i j; linarith) (by have := h0 j i; linarith)]
    linarith
  have h2 : digamma (s + ∑ k, follows starts ends u i k) ≤ digamma (s + ∑ k, follows starts ends u j k) := by
    rw [digamma_le_iff (by have := ht i; linarith) (by have := ht j; linarith)]
    linarith
  linarith

/-- Unit 1 follows unit 0 once, unit 0 never follows unit 1: going from unit 0 to unit 1 becomes the less likely of the two. -/
example : ∃ T', BigramStep trioStarts trioEnds (walk roundPath 6) 1 (fun _ => [1, 1, 1]) (halfLoops 6) T' ∧
    lexp (T' (trioEnds 0) (trioStarts 1)) < lexp (T' (trioEnds 1) (trioStarts 0)) := by
  obtain ⟨T', h⟩ := bigramStep_exists trioStarts trioEnds (walk roundPath 6) rfl 1 (fun _ => [1, 1, 1]) (fun _ => rfl)
    (halfLoops 6)
  refine ⟨T', h, C183_reversed _ _ trio _ rfl (fun i j => ?_) 1 one_pos _ (fun _ => rfl) _ _
    (fun i => by rw [halfLoops_self]; norm_num) h 0 1 (by rw [halfLoops_self, halfLoops_self]) ?_ ?_⟩
  · rw [follows_walk]
    exact Nat.cast_nonneg _
  · rw [follows_walk, follows_walk]
    exact_mod_cast (by decide : _ < _)
  · simp only [follows_walk]
    exact_mod_cast (by decide : _ ≤ _)

/-- **C183 fails for the mass.** If unit `i` is all that follows each of two (or more) units `J`, often enough for the strength
of the prior, the transitions leaving the last state of `i` sum to more than one after the step. -/
theorem C183_mass_fails (starts ends : Fin (E + 1) → Fin n) (hU : UnitEnds starts ends) (u : PUtt n)
    (hu : u.aligned = false) (s : ℝ) (hs0 : 0 < s) (post : Fin (E + 1) → List ℝ) (hp : ∀ i, (post i).length = E + 1)
    (T T' : TMat n) (hT : ∀ i, lexp (T (ends i) (ends i)) < 1) (hs : BigramStep starts ends u s post T T')
    (i : Fin (E + 1)) (J : Finset (Fin (E + 1))) (hJ : 2 ≤ J.card) (honly : ∀ j ∈ J, ∀ k ≠ i, follows starts ends u j k = 0)
    (hmany : ∀ j ∈ J, 2 * (s + 1) ≤ follows starts ends u j i) :
    1 < lexp (T' (ends i) (ends i)) + ∑ j, lexp (T' (ends i) (starts j)) := by
  have hI := C183_installed starts ends hU u hu s post hp T T' (fun i => (hT i).le) hs i
  have hE : (0 : ℝ) < s / (E + 1) := by positivity
  set l := lexp (T (ends i) (ends i)) with hl
  have hl1 : 0 < 1 - l := by have := hT i; linarith
  have hbig : ∀ j ∈ J, (1 - l) * (1 / 2) < lexp (T' (ends i) (starts j)) := by
    intro j hj
    rw [(hI j).1]
    refine mul_lt_mul_of_pos_left ?_ hl1
    have hm := hmany j hj
    set x := follows starts ends u j i with hx
    have hx0 : 0 < x := by linarith
    have hsum : ∑ k, follows starts ends u j k = x :=
      Finset.sum_eq_single i (fun k _ hk => honly j hj k hk) (fun h => absurd (Finset.mem_univ _) h)
    rw [hsum]
    have h1 : digamma x ≤ digamma (s / (E + 1) + x) := (digamma_le_iff hx0 (by linarith)).2 (by linarith)
    have h2 := log_le_digamma_add hx0
    have h3 := digamma_le_log (x := s + x) (by linarith)
    have h4 : Real.log (s + x) - Real.log x ≤ s / x := by
      rw [← Real.log_div (by linarith) hx0.ne']
      have := Real.log_le_sub_one_of_pos (x := (s + x) / x) (by positivity)
      have e : (s + x) / x - 1 = s / x := by field_simp; ring
      linarith
    have h5 : s / x + 1 / x ≤ 1 / 2 := by
      rw [← add_div, div_le_div_iff₀ hx0 two_pos]
      linarith
    calc (1 / 2 : ℝ) = -(1 / 2) + 1 := by norm_num
      _ < Real.exp (-(1 / 2)) := Real.add_one_lt_exp (by norm_num)
      _ ≤ _ := Real.exp_le_exp.2 (by linarith)
  have hsumJ : (J.card : ℝ) * ((1 - l) * (1 / 2)) < ∑ j ∈ J, lexp (T' (ends i) (starts j)) := by
    rw [← nsmul_eq_mul, ← Finset.sum_const]
    exact Finset.sum_lt_sum_of_nonempty (Finset.card_pos.1 (by omega)) hbig
  have hall : ∑ j ∈ J, lexp (T' (ends i) (starts j)) ≤ ∑ j, lexp (T' (ends i) (starts j)) :=
    Finset.sum_le_sum_of_subset_of_nonneg (Finset.subset_univ _) fun j _ _ => by
      rw [(hI j).1]
      positivity
  have hc : (2 : ℝ) ≤ J.card := by exact_mod_cast hJ
  rw [(hI i).2, ← hl]
  nlinarith

/-- Units 1 and 2 are each followed four times by unit 0, and by nothing else. -/
example : ∃ T', BigramStep trioStarts trioEnds (walk betweenPath 32) 1 (fun _ => [1, 1, 1]) (halfLoops 6) T' ∧
    1 < lexp (T' (trioEnds 0) (trioEnds 0)) + ∑ j, lexp (T' (trioEnds 0) (trioStarts j)) := by
  obtain ⟨T', h⟩ := bigramStep_exists trioStarts trioEnds (walk betweenPath 32) rfl 1 (fun _ => [1, 1, 1]) (fun _ => rfl)
    (halfLoops 6)
  have e : ∀ j : Fin 3, j ∈ ({1, 2} : Finset (Fin 3)) → ∀ k : Fin 3,
      (Finset.univ.filter fun t : Fin 32 => trioEnds j = betweenPath t ∧ trioStarts k = betweenPath (t + 1)).card =
        if k = 0 then 4 else 0 := by decide +kernel
  refine ⟨T', h, C183_mass_fails _ _ trio _ rfl 1 one_pos _ (fun _ => rfl) _ _
    (fun i => by rw [halfLoops_self]; norm_num) h 0 {1, 2} (by decide) (fun j hj k hk => ?_) (fun j hj => ?_)⟩
  · rw [follows_walk, e j hj k, if_neg hk]
    exact Nat.cast_zero
  · rw [follows_walk, e j hj 0, if_pos rfl]
    norm_num

/-- **C183, the part that holds.** If every unit follows every other one as often as the converse and all the units are left
equally often, the step gives the more frequent of two followers the greater probability and the transitions leaving a
last state sum to at most one. The missing part: counts without this symmetry. -/
theorem C183_symmetric_partial (starts ends : Fin (E + 1) → Fin n) (hU : UnitEnds starts ends) (u : PUtt n)
    (hu : u.aligned = false) (h0 : ∀ i j, 0 ≤ follows starts ends u i j) (s : ℝ) (hs0 : 0 < s)
    (post : Fin (E + 1) → List ℝ) (hp : ∀ i, (post i).length = E + 1) (T T' : TMat n)
    (hT : ∀ i, lexp (T (ends i) (ends i)) < 1) (hs : BigramStep starts ends u s post T T')
    (hsymm : ∀ i j, follows starts ends u i j = follows starts ends u j i)
    (htot : ∀ i j, ∑ k, follows starts ends u i k = ∑ k, follows starts ends u j k) (i : Fin (E + 1)) :
    (∀ j k, lexp (T' (ends i) (starts j)) ≤ lexp (T' (ends i) (starts k)) ↔
      follows starts ends u i j ≤ follows starts ends u i k) ∧
    lexp (T' (ends i) (ends i)) + ∑ j, lexp (T' (ends i) (starts j)) ≤ 1 := by
  have hI := C183_installed starts ends hU u hu s post hp T T' (fun i => (hT i).le) hs i
  have hE : (0 : ℝ) < s / (E + 1) := by positivity
  have hl1 : 0 < 1 - lexp (T (ends i) (ends i)) := by have := hT i; linarith
  refine ⟨fun j k => ?_, ?_⟩
  · rw [(hI j).1, (hI k).1, htot j k, mul_le_mul_iff_right₀ hl1, Real.exp_le_exp, sub_le_sub_iff_right,
      digamma_le_iff (by have := h0 j i; linarith) (by have := h0 k i; linarith), hsymm i j, hsymm i k]
    exact add_le_add_iff_left _
  · have hc := (C41_expected_log_weights_subnormalised
      (List.ofFn fun j => s / (E + 1) + follows starts ends u i j) (by
        intro x hx
        obtain ⟨j, rfl⟩ := (List.mem_ofFn' _ _).1 hx
        have := h0 i j
        linarith)).1
    have key : ∀ m (e : (List.ofFn fun j => s / (E + 1) + follows starts ends u i j).length = m),
        (List.ofFn fun k : Fin (List.ofFn fun j => s / (E + 1) + follows starts ends u i j).length =>
          Real.exp (catExpLlh (List.ofFn fun j => s / (E + 1) + follows starts ends u i j) (oneHot _ k))).sum =
        ∑ k : Fin m, Real.exp (catExpLlh (List.ofFn fun j => s / (E + 1) + follows starts ends u i j) (oneHot m k)) := by
      intro m e
      subst e
      rw [List.sum_ofFn]
    rw [key (E + 1) (by simp)] at hc
    have e : ∑ j, lexp (T' (ends i) (starts j)) = (1 - lexp (T (ends i) (ends i)))
        * ∑ k : Fin (E + 1), Real.exp (catExpLlh (List.ofFn fun j => s / (E + 1) + follows starts ends u i j)
          (oneHot (E + 1) k)) := by
      rw [Finset.mul_sum]
      refine Finset.sum_congr rfl fun j _ => ?_
      rw [(hI j).1, oneHot_llh, htot j i, hsymm j i, Finset.sum_add_distrib]
      congr 4
      rw [Finset.sum_const, Finset.card_univ, Fintype.card_fin, nsmul_eq_mul]
      push_cast
      field_simp
    rw [e, (hI i).2]
    nlinarith

/-- Two units of two states in turn. -/
example : ∃ T', BigramStep (![0, 2] : Fin 2 → Fin 4) ![1, 3] (walk turnPath 4) 1 (fun _ => [1, 1]) (halfLoops 4) T' ∧
    lexp (T' 1 0) < lexp (T' 1 2) ∧ lexp (T' 1 1) + ∑ j, lexp (T' 1 ((![0, 2] : Fin 2 → Fin 4) j)) ≤ 1 := by
  obtain ⟨T', h⟩ := bigramStep_exists (![0, 2] : Fin 2 → Fin 4) ![1, 3] (walk turnPath 4) rfl 1 (fun _ => [1, 1])
    (fun _ => rfl) (halfLoops 4)
  have key := C183_symmetric_partial _ _ ⟨by decide, by decide, by decide⟩ _ rfl
    (fun i j => by rw [follows_walk]; exact Nat.cast_nonneg _) 1 one_pos _ (fun _ => rfl) _ _
    (fun i => by rw [halfLoops_self]; norm_num) h
    (fun i j => by
      rw [follows_walk, follows_walk]
      congr 1
      revert i j
      decide)
    (fun i j => by
      simp only [follows_walk]
      rw [← Nat.cast_sum, ← Nat.cast_sum]
      congr 1
      revert i j
      decide) 0
  refine ⟨T', h, ?_, key.2⟩
  have k := key.1 1 0
  rw [← not_le]
  intro hc
  have := k.1 hc
  rw [follows_walk, follows_walk] at this
  exact absurd (by exact_mod_cast this) (by decide : ¬ ((Finset.univ.filter fun t : Fin 4 =>
    (![1, 3] : Fin 2 → Fin 4) 0 = turnPath t ∧ (![0, 2] : Fin 2 → Fin 4) 1 = turnPath (t + 1)).card ≤
    (Finset.univ.filter fun t : Fin 4 =>
    (![1, 3] : Fin 2 → Fin 4) 0 = turnPath t ∧ (![0, 2] : Fin 2 → Fin 4) 0 = turnPath (t + 1)).card))

/-- **C183, the part that holds for hierarchical stick-breaking sets**: whatever the (positive) sticks of the contexts and the
order of the categories, the transitions leaving a last state sum to less than one. -/
theorem C183_sticks_mass {P : ℕ} [NeZero P] (starts ends : Fin P → Fin n) (hU : UnitEnds starts ends)
    (σ : Equiv.Perm (Fin P)) (c : Fin P → Fin P → ℝ × ℝ) (hc : ∀ i k, 0 < (c i k).1 ∧ 0 < (c i k).2) (T : TMat n)
    (hT : ∀ i, lexp (T (ends i) (ends i)) < 1) (i : Fin P) :
    lexp (bigramRefresh starts ends (sbSetLogLikelihood σ c) T (ends i) (ends i))
      + ∑ j, lexp (bigramRefresh starts ends (sbSetLogLikelihood σ c) T (ends i) (starts j)) < 1 := by
  have hm := (C80_stick_log_weights σ (c i) (hc i)).2
  have e : ∀ j, lexp (bigramRefresh starts ends (sbSetLogLikelihood σ c) T (ends i) (starts j)) = _ := fun j =>
    C22_stickbreaking_set starts ends hU.injStarts hU.injEnds hU.disj σ c T (fun i => (hT i).le) i j
  rw [(C22_bigram_entries starts ends hU.injStarts hU.injEnds hU.disj _ T (fun i => (hT i).le) i).2]
  simp only [e]
  rw [← Finset.mul_sum]
  have := hT i
  nlinarith

example : lexp (bigramRefresh trioStarts trioEnds (sbSetLogLikelihood (1 : Equiv.Perm (Fin 3)) fun i k =>
      (if k = 0 then 5 else 1, (i : ℝ) + 1)) (halfLoops 6) 1 1)
    + ∑ j, lexp (bigramRefresh trioStarts trioEnds (sbSetLogLikelihood (1 : Equiv.Perm (Fin 3)) fun i k =>
      (if k = 0 then 5 else 1, (i : ℝ) + 1)) (halfLoops 6) 1 (trioStarts j)) < 1 :=
  C183_sticks_mass _ _ trio _ _ (fun i k => ⟨by split_ifs <;> norm_num, by positivity⟩) _
    (fun i => by rw [halfLoops_self]; norm_num) 0

/-! ## The effect of one more transition -/

/-- The counts of `n'` are those of `n`, except that unit `j` follows unit `i` more often. -/
structure OneMore {P : ℕ} (n n' : Fin P → Fin P → ℝ) (i j : Fin P) : Prop where
  nonneg : ∀ a b, 0 ≤ n a b
  more : n i j < n' i j
  same : ∀ a b, (a, b) ≠ (i, j) → n' a b = n a b

/-- **C183 for hierarchical stick-breaking sets (order).** After a full step of the training, seeing unit `j` follow unit `i`
more often, all other counts being the same, gives a strictly greater probability to going from `i` to `j`, whatever the
prior, the posteriors before, the order of the sticks and the transitions before; the transitions leaving the other units
do not change. -/
theorem C183_sticks_more {P : ℕ} [NeZero P] (starts ends : Fin P → Fin n) (hU : UnitEnds starts ends)
    (σ : Equiv.Perm (Fin P)) (w : VB.CParam (Fin (P * P) → ℝ × ℝ)) (hw : ∀ p, 0 < (w.prior p).1 ∧ 0 < (w.prior p).2)
    (N N' : Fin P → Fin P → ℝ) (i j : Fin P) (h : OneMore N N' i j) (T : TMat n)
    (hT : ∀ i, lexp (T (ends i) (ends i)) < 1) :
    lexp (bigramRefresh starts ends (sbSetLogLikelihood σ (GSM.split (MkLoop.sbSetUpdate σ w N 1).post)) T (ends i)
        (starts j))
      < lexp (bigramRefresh starts ends (sbSetLogLikelihood σ (GSM.split (MkLoop.sbSetUpdate σ w N' 1).post)) T (ends i)
        (starts j)) ∧
    ∀ a ≠ i, ∀ b,
      lexp (bigramRefresh starts ends (sbSetLogLikelihood σ (GSM.split (MkLoop.sbSetUpdate σ w N' 1).post)) T (ends a)
        (starts b))
      = lexp (bigramRefresh starts ends (sbSetLogLikelihood σ (GSM.split (MkLoop.sbSetUpdate σ w N 1).post)) T (ends a)
        (starts b)) := by
  have hp : ∀ a b, 0 < (GSM.split w.prior a b).1 ∧ 0 < (GSM.split w.prior a b).2 := fun a b => hw _
  have hN' : ∀ a b, 0 ≤ N' a b := by
    intro a b
    by_cases hab : (a, b) = (i, j)
    · obtain ⟨rfl, rfl⟩ := Prod.mk.inj hab
      exact (h.nonneg _ _).trans h.more.le
    · rw [h.same a b hab]
      exact h.nonneg a b
  have hca : ∀ (M : Fin P → ℝ), (∀ b, 0 ≤ M b) → ∀ k, 0 ≤ countAfter σ M k := fun M hM k =>
    Finset.sum_nonneg fun b _ => hM b
  have inst : ∀ (M : Fin P → Fin P → ℝ) (a b : Fin P), lexp (bigramRefresh starts ends
      (sbSetLogLikelihood σ (GSM.split (MkLoop.sbSetUpdate σ w M 1).post)) T (ends a) (starts b)) =
      (1 - lexp (T (ends a) (ends a))) * Real.exp (sbExpLlh σ (GSM.split (MkLoop.sbSetUpdate σ w M 1).post a)
        (Pi.single b 1)) := fun M a b =>
    C22_stickbreaking_set starts ends hU.injStarts hU.injEnds hU.disj σ _ T (fun i => (hT i).le) a b
  have row : ∀ (M : Fin P → Fin P → ℝ) (a : Fin P), GSM.split (MkLoop.sbSetUpdate σ w M 1).post a = fun k =>
      ((GSM.split w.prior a k).1 + M a k, (GSM.split w.prior a k).2 + countAfter σ (M a) k) := fun M a =>
    funext fun k => (C135_training σ w M a k).1
  refine ⟨?_, fun a ha b => ?_⟩
  · rw [inst, inst]
    refine mul_lt_mul_of_pos_left (Real.exp_lt_exp.2 ?_) (by have := hT i; linarith)
    have val : ∀ (M : Fin P → Fin P → ℝ), (∀ b, 0 ≤ M i b) →
        sbExpLlh σ (GSM.split (MkLoop.sbSetUpdate σ w M 1).post i) (Pi.single j 1) =
        (digamma ((GSM.split w.prior i j).1 + M i j) - digamma ((GSM.split w.prior i j).1 + M i j
          + ((GSM.split w.prior i j).2 + countAfter σ (M i) j)))
        + ∑ k ∈ Finset.univ.filter (fun k => RankedAfter σ k j),
          (digamma ((GSM.split w.prior i k).2 + countAfter σ (M i) k) - digamma ((GSM.split w.prior i k).1 + M i k
            + ((GSM.split w.prior i k).2 + countAfter σ (M i) k))) := by
      intro M hM
      rw [row, (C80_stick_log_weights σ _ fun k => ⟨by have := hp i k; have := hM k; dsimp only; linarith,
        by have := hp i k; have := hca (M i) hM k; dsimp only; linarith⟩).1]
      rw [Finset.sum_eq_single j]
      · rw [Pi.single_eq_same, one_mul]
      · intro k _ hk
        rw [Pi.single_eq_of_ne hk, zero_mul]
      · intro hj
        exact absurd (Finset.mem_univ _) hj
    rw [val N (h.nonneg i), val N' (hN' i)]
    have hd : 0 < N' i j - N i j := by have := h.more; linarith
    have after : countAfter σ (N' i) j = countAfter σ (N i) j := by
      refine Finset.sum_congr rfl fun k hk => h.same i k ?_
      intro e
      obtain ⟨-, rfl⟩ := Prod.mk.inj e
      exact lt_irrefl _ (Finset.mem_filter.1 hk).2
    refine add_lt_add_of_lt_of_le ?_ (Finset.sum_le_sum fun k hk => ?_)
    · rw [after]
      have h1 := h.nonneg i j
      have h2 := hca (N i) (h.nonneg i) j
      have h3 := hp i j
      have := psi_share_lt (c := (GSM.split w.prior i j).2 + countAfter σ (N i) j) (d := N' i j - N i j)
        (x := (GSM.split w.prior i j).1 + N i j) (by linarith) hd (by linarith)
      rw [show (GSM.split w.prior i j).1 + N i j + (N' i j - N i j) = (GSM.split w.prior i j).1 + N' i j by ring] at this
      exact this
    · have hkj : RankedAfter σ k j := (Finset.mem_filter.1 hk).2
      have hne : k ≠ j := by
        rintro rfl
        exact lt_irrefl _ hkj
      have e1 : N' i k = N i k := h.same i k fun e => hne (Prod.mk.inj e).2
      have e2 : countAfter σ (N' i) k = countAfter σ (N i) k + (N' i j - N i j) := by
        unfold countAfter
        rw [← sub_eq_iff_eq_add', ← Finset.sum_sub_distrib]
        refine Finset.sum_eq_single j (fun b _ hb => ?_) fun hj => ?_
        · rw [h.same i b fun e => hb (Prod.mk.inj e).2, sub_self]
        · exact absurd (Finset.mem_filter.2 ⟨Finset.mem_univ _, hkj⟩) hj
      have h1 := h.nonneg i k
      have h2 := hca (N i) (h.nonneg i) k
      have h3 := hp i k
      have := psi_share_lt (c := (GSM.split w.prior i k).1 + N i k) (d := N' i j - N i j)
        (x := (GSM.split w.prior i k).2 + countAfter σ (N i) k) (by linarith) hd (by linarith)
      rw [e1, e2]
      rw [add_comm ((GSM.split w.prior i k).1 + N i k), add_comm ((GSM.split w.prior i k).1 + N i k),
        ← add_assoc ((GSM.split w.prior i k).2)]
      exact this.le
  · rw [inst, inst, row, row]
    have : N' a = N a := funext fun k => h.same a k fun e => ha (Prod.mk.inj e).1
    rw [this]

/-- Three units in the order 0, 1, 2, uniform counts, and one more transition from unit 2 to unit 1. -/
example : lexp (bigramRefresh trioStarts trioEnds (sbSetLogLikelihood (1 : Equiv.Perm (Fin 3))
      (GSM.split (MkLoop.sbSetUpdate 1 ⟨fun _ => (1, 2), fun _ => (4, 4)⟩ (fun _ _ => 1) 1).post)) (halfLoops 6) 5 2)
    < lexp (bigramRefresh trioStarts trioEnds (sbSetLogLikelihood (1 : Equiv.Perm (Fin 3))
      (GSM.split (MkLoop.sbSetUpdate 1 ⟨fun _ => (1, 2), fun _ => (4, 4)⟩
        (fun a b => if (a, b) = ((2, 1) : Fin 3 × Fin 3) then 2 else 1) 1).post)) (halfLoops 6) 5 2) :=
  (C183_sticks_more _ _ trio _ _ (fun _ => ⟨by norm_num, by norm_num⟩) _ _ 2 1
    ⟨fun _ _ => zero_le_one, by simp, fun a b h => if_neg h⟩ _
    (fun i => by rw [halfLoops_self]; norm_num)).1

/-- **C183 fails for `CategoricalSet` (more transitions).** After the step on an utterance in which unit `j` follows another
unit `i` more often, all other counts being the same, the probability of going from `i` to `j` is not changed by it; it
is the one of going from `j` to `i` which is greater. -/
theorem C183_more_fails (starts ends : Fin (E + 1) → Fin n) (hU : UnitEnds starts ends) (u u' : PUtt n)
    (hu : u.aligned = false) (hu' : u'.aligned = false) (s : ℝ) (hs0 : 0 < s) (post : Fin (E + 1) → List ℝ)
    (hp : ∀ i, (post i).length = E + 1) (T T1 T2 : TMat n) (hT : ∀ i, lexp (T (ends i) (ends i)) < 1)
    (h1 : BigramStep starts ends u s post T T1) (h2 : BigramStep starts ends u' s post T T2) (i j : Fin (E + 1))
    (hij : i ≠ j) (hmore : OneMore (follows starts ends u) (follows starts ends u') i j) :
    lexp (T2 (ends i) (starts j)) = lexp (T1 (ends i) (starts j)) ∧
    lexp (T1 (ends j) (starts i)) < lexp (T2 (ends j) (starts i)) := by
  have hE : (0 : ℝ) < s / (E + 1) := by positivity
  have e1 := fun a b => (C183_installed starts ends hU u hu s post hp T T1 (fun i => (hT i).le) h1 a b).1
  have e2 := fun a b => (C183_installed starts ends hU u' hu' s post hp T T2 (fun i => (hT i).le) h2 a b).1
  have hrow : ∀ k, follows starts ends u' j k = follows starts ends u j k := fun k =>
    hmore.same j k fun e => hij (Prod.mk.inj e).1.symm
  constructor
  · rw [e1, e2]
    simp only [hrow]
  · rw [e1, e2]
    refine mul_lt_mul_of_pos_left (Real.exp_lt_exp.2 ?_) (by have := hT j; linarith)
    have hd : 0 < follows starts ends u' i j - follows starts ends u i j := by have := hmore.more; linarith
    have htot : ∑ k, follows starts ends u' i k = ∑ k, follows starts ends u i k
        + (follows starts ends u' i j - follows starts ends u i j) := by
      rw [← sub_eq_iff_eq_add', ← Finset.sum_sub_distrib]
      refine Finset.sum_eq_single j (fun b _ hb => ?_) fun hj => absurd (Finset.mem_univ _) hj
      rw [hmore.same i b fun e => hb (Prod.mk.inj e).2, sub_self]
    have hle : follows starts ends u i j ≤ ∑ k, follows starts ends u i k :=
      Finset.single_le_sum (fun k _ => hmore.nonneg i k) (Finset.mem_univ j)
    have hE1 : 1 ≤ E := by
      by_contra hc
      obtain rfl : E = 0 := by omega
      exact hij (Fin.ext (by omega))
    have hsE : s / (E + 1) < s := div_lt_self hs0 (by have : (1 : ℝ) ≤ E := by exact_mod_cast hE1
                                                      linarith)
    have h0 := hmore.nonneg i j
    rw [htot]
    set a := s / (E + 1) + follows starts ends u i j with ha
    have := psiStep_strictAnti hd (show 0 < a by linarith) (show a < s + ∑ k, follows starts ends u i k by linarith)
    unfold psiStep at this
    rw [show s / (E + 1) + follows starts ends u' i j =
        a + (follows starts ends u' i j - follows starts ends u i j) by rw [ha]; ring, ← add_assoc]
    linarith

/-- The utterances `0 1` and `0`, of three units of two states: the transition from unit 0 to unit 1 is seen once more in the
first one. -/
example : ∃ T1 T2, BigramStep trioStarts trioEnds (walk roundPath 1) 1 (fun _ => [1, 1, 1]) (halfLoops 6) T1 ∧
    BigramStep trioStarts trioEnds (walk roundPath 3) 1 (fun _ => [1, 1, 1]) (halfLoops 6) T2 ∧
    lexp (T2 1 2) = lexp (T1 1 2) ∧ lexp (T1 3 0) < lexp (T2 3 0) := by
  obtain ⟨T1, h1⟩ := bigramStep_exists trioStarts trioEnds (walk roundPath 1) rfl 1 (fun _ => [1, 1, 1]) (fun _ => rfl)
    (halfLoops 6)
  obtain ⟨T2, h2⟩ := bigramStep_exists trioStarts trioEnds (walk roundPath 3) rfl 1 (fun _ => [1, 1, 1]) (fun _ => rfl)
    (halfLoops 6)
  have e1 : ∀ i j : Fin 3,
      (Finset.univ.filter fun t : Fin 1 => trioEnds i = roundPath t ∧ trioStarts j = roundPath (t + 1)).card = 0 := by
    decide +kernel
  have e3 : ∀ i j : Fin 3,
      (Finset.univ.filter fun t : Fin 3 => trioEnds i = roundPath t ∧ trioStarts j = roundPath (t + 1)).card =
        if (i, j) = ((0, 1) : Fin 3 × Fin 3) then 1 else 0 := by
    decide +kernel
  refine ⟨T1, T2, h1, h2, C183_more_fails _ _ trio _ _ rfl rfl 1 one_pos _ (fun _ => rfl) _ _ _
    (fun i => by rw [halfLoops_self]; norm_num) h1 h2 0 1 (by decide) ⟨fun a b => ?_, ?_, fun a b hab => ?_⟩⟩
  · rw [follows_walk]
    exact Nat.cast_nonneg _
  · rw [follows_walk, follows_walk, e1, e3]
    simp
  · rw [follows_walk, follows_walk, e1, e3, if_neg hab]

end Verif.Props
