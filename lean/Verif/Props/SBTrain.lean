import Verif.Lemmas.SBTrain
import Verif.Props.VBTrain
import Mathlib.Data.Fin.Tuple.Sort

/-!
# Training of stick-breaking weights: C158
-/

namespace Verif.Props

open Finset Verif Verif.VB Verif.Dists Verif.DistSpec Verif.Spec

variable {X : Type} {K : ℕ} [NeZero K]

/-- C158: a step with learning rate one reaches the best evidence lower bound of the batch: no posterior of the sticks and
no ordering of the categories has a larger one.  The re-ordering by decreasing counts is the best one. -/
theorem C158_best (sort : (Fin K → ℝ) → Equiv.Perm (Fin K)) (hsort : SortLaw sort) (s : SBCat K) (α : ℝ) (hα : 0 < α)
    (hp : StickPrior α s) (data : List (Fin K → ℝ)) (hd : ∀ x ∈ data, ∀ k, 0 ≤ x k) (hne : data ≠ []) (datasize : ℤ) :
    ∃ s' g', s.step sort data datasize 1 = .ok s' ∧ StickPrior α s' ∧ (∀ k, 0 < (s'.post k).1 ∧ 0 < (s'.post k).2) ∧
      s'.elbo data datasize = .ok g' ∧
      ∀ (post : Fin K → ℝ × ℝ) (τ : Equiv.Perm (Fin K)), (∀ k, 0 < (post k).1 ∧ 0 < (post k).2) →
        ∃ g, SBCat.elbo ⟨s.prior, post, τ⟩ data datasize = .ok g ∧ g ≤ g' := by
  obtain ⟨scale, hs, hspos⟩ := batchScale_pos (List.length_pos_iff.2 hne) datasize
  set n : Fin K → ℝ := fun k => scale * (data.map fun x => x k).sum with hn
  have hn0 : ∀ k, 0 ≤ n k := counts_nonneg scale hspos.le data hd
  have hpr : ∀ k, 0 < (s.prior k).1 ∧ 0 < (s.prior k).2 := fun k => by rw [hp k]; exact ⟨one_pos, hα⟩
  have hpost : ∀ k, ((s.update sort n 1).post k) = (1 + n k, α + countAfter (sort n) n k) := by
    intro k
    rw [update_post, hp k]
    ext <;> ring
  have hv' : SticksValid (s.update sort n 1) := ⟨hpr, fun k => by
    rw [hpost]
    exact ⟨by show 0 < 1 + n k; linarith [hn0 k], by
      show 0 < α + countAfter (sort n) n k; linarith [countAfter_nonneg (sort n) n hn0 k]⟩⟩
  refine ⟨s.update sort n 1, _, ?_, hp, hv'.post, elbo_eq _ hv' data datasize scale hs, ?_⟩
  · unfold SBCat.step
    rw [hs]
    rfl
  · intro post τ hq
    refine ⟨_, elbo_eq ⟨s.prior, post, τ⟩ ⟨hpr, hq⟩ data datasize scale hs, ?_⟩
    show sF s.prior n τ post ≤ sF s.prior n (sort n) (s.update sort n 1).post
    rw [sF_full]
    refine (sF_le_best _ _ hpr hq n hn0 τ).trans ?_
    have e : s.prior = fun _ => (1, α) := funext hp
    rw [e]
    exact sBest_le α hα n hn0 _ _ (hsort n)

/-- C158, one step: it does not decrease the evidence lower bound when the learning rate is one, or when the ordering is
kept.  Partial: false for the other steps (`C158_decrease`). -/
theorem C158_step_partial (sort : (Fin K → ℝ) → Equiv.Perm (Fin K)) (hsort : SortLaw sort) (s : SBCat K) (α : ℝ)
    (hα : 0 < α) (hp : StickPrior α s) (hq : ∀ k, 0 < (s.post k).1 ∧ 0 < (s.post k).2) (data : List (Fin K → ℝ))
    (hd : ∀ x ∈ data, ∀ k, 0 ≤ x k) (hne : data ≠ []) (datasize : ℤ) (l : ℝ) (h0 : 0 < l) (h1 : l ≤ 1) :
    ∃ s' g g', s.step sort data datasize l = .ok s' ∧ StickPrior α s' ∧ (∀ k, 0 < (s'.post k).1 ∧ 0 < (s'.post k).2) ∧
      s.elbo data datasize = .ok g ∧ s'.elbo data datasize = .ok g' ∧
      (l = 1 ∨ s'.ordering = s.ordering → g ≤ g') := by
  obtain ⟨scale, hs, hspos⟩ := batchScale_pos (List.length_pos_iff.2 hne) datasize
  set n : Fin K → ℝ := fun k => scale * (data.map fun x => x k).sum with hn
  have hn0 : ∀ k, 0 ≤ n k := counts_nonneg scale hspos.le data hd
  have hv : SticksValid s := ⟨fun k => by rw [hp k]; exact ⟨one_pos, hα⟩, hq⟩
  have hv' := update_valid sort s hv n hn0 l h0 h1
  refine ⟨s.update sort n l, _, _, ?_, hp, hv'.post, elbo_eq _ hv data datasize scale hs,
    elbo_eq _ hv' data datasize scale hs, ?_⟩
  · unfold SBCat.step
    rw [hs]
    rfl
  · intro h
    exact sticks_gain sort s hv n hn0 l h0 h1
      (h.elim (fun h => .inr ⟨h, hsort n, α, hα, hp⟩) fun h => .inl h)

/-- C158: training a mixture with stick-breaking weights over a well-behaved set with learning rate one: no exception,
valid parameters, and the evidence lower bound never decreases, whatever the re-orderings. -/
theorem C158_mixture_training (sort : (Fin K → ℝ) → Equiv.Perm (Fin K)) (hsort : SortLaw sort) (inner : SetModel X K)
    (V : inner.State → Prop) (XV : X → Prop) (hin : Lawful inner V XV) (data : List X) (hd : ∀ x ∈ data, XV x)
    (hne : data ≠ []) (datasize : ℤ) (steps : ℕ) (st : SBMixState inner) (α : ℝ) (hα : 0 < α)
    (hp : StickPrior α st.weights) (hq : ∀ k, 0 < (st.weights.post k).1 ∧ 0 < (st.weights.post k).2)
    (hc : V st.comps) :
    ∃ st' g g', sbMixTrain sort inner data datasize st steps = .ok st' ∧ StickPrior α st'.weights ∧
      (∀ k, 0 < (st'.weights.post k).1 ∧ 0 < (st'.weights.post k).2) ∧ V st'.comps ∧
      sbMixElbo inner st data datasize = .ok g ∧ sbMixElbo inner st' data datasize = .ok g' ∧ g ≤ g' := by
  have hstep : ∀ st : SBMixState inner, StickPrior α st.weights →
      (∀ k, 0 < (st.weights.post k).1 ∧ 0 < (st.weights.post k).2) → V st.comps →
      ∃ st' g g', sbMixStep sort inner st data datasize 1 = .ok st' ∧ SticksValid st'.weights ∧ V st'.comps ∧
        StickPrior α st'.weights ∧ sbMixElbo inner st data datasize = .ok g ∧
        sbMixElbo inner st' data datasize = .ok g' ∧ g ≤ g' := by
    intro st hp hq hc
    obtain ⟨st', g, g', e, v, v2, hpr, _, eg, eg', hle⟩ := sbMix_step sort inner V XV hin st
      ⟨fun k => by rw [hp k]; exact ⟨one_pos, hα⟩, hq⟩ hc data hd hne datasize 1 one_pos le_rfl
      fun scale _ => .inr ⟨rfl, hsort _, α, hα, hp⟩
    refine ⟨st', g, g', e, v, v2, ?_, eg, eg', hle⟩
    intro k
    rw [hpr]
    exact hp k
  induction steps generalizing st with
  | zero =>
    obtain ⟨_, g, _, _, _, _, _, e, _⟩ := hstep st hp hq hc
    exact ⟨st, g, g, rfl, hp, hq, hc, e, e, le_rfl⟩
  | succ m ih =>
    obtain ⟨s1, g, g1, e1, v1, v2, p1, eg, eg1, hle⟩ := hstep st hp hq hc
    obtain ⟨st', g1', g', e2, v3, v4, v5, eg2, eg', hle'⟩ := ih s1 p1 v1.post v2
    rw [eg1] at eg2
    refine ⟨st', g, g', ?_, v3, v4, v5, eg, eg', hle.trans ((Except.ok.inj eg2).symm ▸ hle')⟩
    rw [sbMixTrain, e1]
    exact e2

/-- C158, mixtures, one step with any learning rate in `(0, 1]` and any valid prior of the sticks: the evidence lower bound
does not decrease when the ordering is kept.  Partial: false when it changes (`C158_decrease`). -/
theorem C158_mixture_step_partial (sort : (Fin K → ℝ) → Equiv.Perm (Fin K)) (inner : SetModel X K)
    (V : inner.State → Prop) (XV : X → Prop) (hin : Lawful inner V XV) (data : List X) (hd : ∀ x ∈ data, XV x)
    (hne : data ≠ []) (datasize : ℤ) (l : ℝ) (h0 : 0 < l) (h1 : l ≤ 1) (st st' : SBMixState inner)
    (hv : SticksValid st.weights) (hc : V st.comps) (e : sbMixStep sort inner st data datasize l = .ok st')
    (ho : st'.weights.ordering = st.weights.ordering) :
    SticksValid st'.weights ∧ V st'.comps ∧
    ∃ g g', sbMixElbo inner st data datasize = .ok g ∧ sbMixElbo inner st' data datasize = .ok g' ∧ g ≤ g' := by
  have hsc : ∀ scale, batchScale data.length datasize = .ok scale →
      st'.weights.ordering = sort (mixCounts inner st scale data) := by
    intro scale hs
    have hout : ∀ x ∈ data, sbMixOut inner st x =
        .ok (Mixture.mixLocal st.weights.logWeights (valueOf 0 (inner.llh st.comps x))) := by
      intro x hx
      obtain ⟨v, h⟩ := hin.llh_ok st.comps x hc (hd x hx)
      unfold sbMixOut
      rw [h]
      rfl
    unfold sbMixStep at e
    rw [hs, ok_bind, mapM_ok_map _ _ data hout, ok_bind] at e
    revert e
    generalize (inner.step st.comps _ scale l) = r
    cases r with
    | error _ => intro e; cases e
    | ok s' =>
      intro e
      rw [← Except.ok.inj e]
      simp only [List.map_map]
      rfl
  obtain ⟨st2, g, g', e2, v, v2, _, _, eg, eg', hle⟩ := sbMix_step sort inner V XV hin st hv hc data hd hne datasize l h0 h1
    fun scale hs => .inl ((hsc scale hs).symm.trans ho)
  rw [e] at e2
  rw [Except.ok.inj e2]
  exact ⟨v, v2, g, g', eg, eg', hle⟩

/-- C158: a new model has the prior as its posterior (its evidence lower bound is the expected log-likelihood of the data)
and, for each category, a smaller weight than for the previous one by the same factor. -/
theorem C158_create (α : ℝ) (hα : 0 < α) : StickPrior α (SBCat.create K α) ∧
    (∀ k, 0 < ((SBCat.create K α).post k).1 ∧ 0 < ((SBCat.create K α).post k).2) ∧ (SBCat.create K α).kl = .ok 0 ∧
    ∀ k : Fin K, (SBCat.create K α).logWeights k =
      digamma 1 - digamma (1 + α) + k.1 * (digamma α - digamma (1 + α)) := by
  have hv : ∀ k : Fin K, 0 < ((SBCat.create K α).post k).1 ∧ 0 < ((SBCat.create K α).post k).2 :=
    fun _ => ⟨one_pos, hα⟩
  refine ⟨fun _ => rfl, hv, ?_, fun k => ?_⟩
  · rw [sbcat_kl_eq]
    exact congrArg Except.ok (Finset.sum_eq_zero fun k _ => bK_self _)
  · unfold SBCat.logWeights
    rw [(C80_stick_log_weights (SBCat.create K α).ordering _ hv).1]
    rw [Finset.sum_eq_single k (fun j _ hj => by simp [hj]) (by simp)]
    have hc : (univ.filter fun j => RankedAfter (SBCat.create K α).ordering j k) = Finset.Iio k := by
      ext j
      rw [Finset.mem_filter, Finset.mem_Iio]
      exact ⟨fun h => h.2, fun h => ⟨Finset.mem_univ _, h⟩⟩
    rw [hc]
    show Pi.single (M := fun _ => ℝ) k 1 k * (digamma 1 - digamma (1 + α) + ∑ _j ∈ Finset.Iio k, (digamma α - digamma (1 + α))) = _
    rw [Finset.sum_const, Fin.card_Iio, nsmul_eq_mul, Pi.single_eq_same, one_mul]

example : (SBCat.create 3 2).logWeights 2 = digamma 1 - digamma (1 + 2) + 2 * (digamma 2 - digamma (1 + 2)) :=
  (C158_create (K := 3) 2 (by norm_num)).2.2.2 2

/-- C158, error branch: an empty batch. -/
theorem C158_empty_batch (sort : (Fin K → ℝ) → Equiv.Perm (Fin K)) (s : SBCat K) (datasize : ℤ) (l : ℝ) :
    s.elbo [] datasize = .error .zeroDivision ∧ s.step sort [] datasize l = .error .zeroDivision := ⟨rfl, rfl⟩

/-! ## Smaller learning rates -/

omit [NeZero K] in
theorem digamma_sub_nat (a b : ℕ) : digamma ((a + 1 + b : ℕ) : ℝ) - digamma ((a + 1 : ℕ) : ℝ) =
    ∑ i ∈ range b, 1 / ((a + 1 + i : ℕ) : ℝ) := by
  induction b with
  | zero => simp
  | succ b ih =>
    rw [Finset.sum_range_succ, ← ih]
    have h : (0 : ℝ) < ((a + 1 + b : ℕ) : ℝ) := by positivity
    have := digamma_add_one h
    have e : ((a + 1 + (b + 1) : ℕ) : ℝ) = ((a + 1 + b : ℕ) : ℝ) + 1 := by push_cast; ring
    rw [e, this]
    ring

omit [NeZero K] in
theorem lgamma_nat (a : ℕ) : lgamma ((a + 1 : ℕ) : ℝ) = Real.log (a.factorial : ℝ) := by
  unfold lgamma
  rw [show ((a + 1 : ℕ) : ℝ) = (a : ℝ) + 1 by push_cast; rfl, Real.Gamma_nat_eq_factorial]

/-- A batch of `a` observations of the first category and `b` of the second one. -/
def coinBatch (a b : ℕ) : List (Fin 2 → ℝ) :=
  List.replicate a (fun k => if k = 0 then 1 else 0) ++ List.replicate b (fun k => if k = 0 then 0 else 1)

omit [NeZero K] in
theorem coinBatch_sum (a b : ℕ) (k : Fin 2) : ((coinBatch a b).map fun x => x k).sum = if k = 0 then (a : ℝ) else b := by
  unfold coinBatch
  fin_cases k <;> simp [List.sum_replicate]

omit [NeZero K] in
theorem perm_two (σ : Equiv.Perm (Fin 2)) : σ = 1 ∨ σ = Equiv.swap 0 1 := by
  revert σ; decide

omit [NeZero K] in
theorem after_id (n : Fin 2 → ℝ) : countAfter (1 : Equiv.Perm (Fin 2)) n 0 = n 1 ∧ countAfter 1 n 1 = 0 := by
  have h : (1 : Equiv.Perm (Fin 2)).symm = 1 := rfl
  constructor <;> simp [countAfter, RankedAfter, Finset.sum_filter, Fin.sum_univ_two, h]

omit [NeZero K] in
theorem after_swap (n : Fin 2 → ℝ) : countAfter (Equiv.swap 0 1) n 0 = 0 ∧ countAfter (Equiv.swap 0 1) n 1 = n 0 := by
  constructor <;> simp [countAfter, RankedAfter, Finset.sum_filter, Fin.sum_univ_two]

omit [NeZero K] in
theorem bF_alt (p : ℝ × ℝ) (n t : ℝ) :
    bF (1, 1) n t p = bA p - bA (1, 1) + (n + 1 - p.1) * bE1 p + (t + 1 - p.2) * bE2 p := by
  unfold bF bK
  ring

omit [NeZero K] in
theorem coin_numbers : bF (1, 1) 6 4 (7, 3) + bF (1, 1) 4 0 (7, 4) < bF (1, 1) 4 6 (9, 7) + bF (1, 1) 6 0 (7, 1) := by
  have h1 := digamma_sub_nat 8 7
  have h3 := digamma_sub_nat 2 7
  have h4 := digamma_sub_nat 6 4
  have h5 := digamma_sub_nat 3 7
  have k3 := lgamma_nat 2
  have k4 := lgamma_nat 3
  have k8 := lgamma_nat 7
  have k9 := lgamma_nat 8
  have k10 := lgamma_nat 9
  have k11 := lgamma_nat 10
  have k16 := lgamma_nat 15
  have k1 := lgamma_nat 0
  norm_num [Finset.sum_range_succ, Nat.factorial] at h1 h3 h4 h5 k1 k3 k4 k8 k9 k10 k11 k16
  have hlog : Real.log 2 + Real.log 6 + Real.log 1307674368000 + Real.log 5040 - Real.log 40320 - Real.log 362880 -
      Real.log 3628800 ≤ 1 / 2 := by
    have e : Real.log (2 * 6 * 1307674368000 * 5040 / 40320 / 362880 / 3628800) =
        Real.log 2 + Real.log 6 + Real.log 1307674368000 + Real.log 5040 - Real.log 40320 - Real.log 362880 -
          Real.log 3628800 := by
      rw [Real.log_div (by norm_num) (by norm_num), Real.log_div (by norm_num) (by norm_num),
        Real.log_div (by norm_num) (by norm_num), Real.log_mul (by norm_num) (by norm_num),
        Real.log_mul (by norm_num) (by norm_num), Real.log_mul (by norm_num) (by norm_num)]
    rw [← e]
    refine (Real.log_le_sub_one_of_pos (by norm_num)).trans (by norm_num)
  simp only [bF_alt]
  unfold bA bE1 bE2
  norm_num
  rw [k1, k3, k4, k8, k9, k10, k11, k16]
  linarith

/-- C158, negation: from a new model, a first batch of 8 and 6 observations with learning rate one, then a batch of 4 and 6
observations with learning rate `1/2`: the categories change their ranks, and the second step decreases the evidence lower
bound of its own batch. -/
theorem C158_decrease (sort : (Fin 2 → ℝ) → Equiv.Perm (Fin 2)) (hsort : SortLaw sort) :
    ∃ s1 s2 g g', (SBCat.create 2 1).step sort (coinBatch 8 6) (-1) 1 = .ok s1 ∧
      s1.step sort (coinBatch 4 6) (-1) (1 / 2) = .ok s2 ∧ s2.ordering ≠ s1.ordering ∧
      s1.elbo (coinBatch 4 6) (-1) = .ok g ∧ s2.elbo (coinBatch 4 6) (-1) = .ok g' ∧ g' < g := by
  have hscale : ∀ a b : ℕ, 0 < a → batchScale (coinBatch a b).length (-1) = .ok 1 := by
    intro a b ha
    unfold batchScale
    have hl : (coinBatch a b).length = a + b := by simp [coinBatch]
    have : ((a + b : ℕ) : ℝ) ≠ 0 := by positivity
    rw [hl, if_neg (by omega), if_pos (by norm_num), Int.cast_natCast, div_self this]
  have hcnt : ∀ a b : ℕ, (fun k => (1 : ℝ) * ((coinBatch a b).map fun x => x k).sum) =
      fun k => if k = 0 then (a : ℝ) else b := by
    intro a b
    funext k
    rw [coinBatch_sum, one_mul]
  have o1 : sort (fun k => if k = 0 then ((8 : ℕ) : ℝ) else ((6 : ℕ) : ℝ)) = 1 := by
    rcases perm_two (sort fun k => if k = 0 then ((8 : ℕ) : ℝ) else ((6 : ℕ) : ℝ)) with h | h
    · exact h
    · have := hsort (fun k => if k = 0 then ((8 : ℕ) : ℝ) else ((6 : ℕ) : ℝ)) 0 1 (by decide)
      rw [h] at this
      norm_num at this
  have o2 : sort (fun k => if k = 0 then ((4 : ℕ) : ℝ) else ((6 : ℕ) : ℝ)) = Equiv.swap 0 1 := by
    rcases perm_two (sort fun k => if k = 0 then ((4 : ℕ) : ℝ) else ((6 : ℕ) : ℝ)) with h | h
    · have := hsort (fun k => if k = 0 then ((4 : ℕ) : ℝ) else ((6 : ℕ) : ℝ)) 0 1 (by decide)
      rw [h] at this
      norm_num at this
    · exact h
  have e1 : (SBCat.create 2 1).step sort (coinBatch 8 6) (-1) 1 =
      .ok ⟨fun _ => (1, 1), fun k => if k = 0 then (9, 7) else (7, 1), 1⟩ := by
    unfold SBCat.step
    rw [hscale 8 6 (by norm_num), ok_bind, hcnt]
    congr 1
    refine SBCat.ext rfl ?_ o1
    funext k
    rw [update_post, o1]
    fin_cases k
    · simp [SBCat.create, (after_id _).1]; norm_num
    · simp [SBCat.create, (after_id _).2]; norm_num
  have e2 : SBCat.step sort ⟨fun _ => (1, 1), fun k => if k = 0 then (9, 7) else (7, 1), 1⟩ (coinBatch 4 6) (-1) (1 / 2) =
      .ok ⟨fun _ => (1, 1), fun k => if k = 0 then (7, 4) else (7, 3), Equiv.swap 0 1⟩ := by
    unfold SBCat.step
    rw [hscale 4 6 (by norm_num), ok_bind, hcnt]
    congr 1
    refine SBCat.ext rfl ?_ o2
    funext k
    rw [update_post, o2]
    fin_cases k
    · simp [(after_swap _).1]; norm_num
    · simp [(after_swap _).2]; norm_num
  refine ⟨_, _, _, _, e1, e2, by decide, elbo_eq _ ⟨?_, ?_⟩ _ _ 1 (hscale 4 6 (by norm_num)),
    elbo_eq _ ⟨?_, ?_⟩ _ _ 1 (hscale 4 6 (by norm_num)), ?_⟩
  · intro k; norm_num
  · intro k; fin_cases k <;> norm_num
  · intro k; norm_num
  · intro k; fin_cases k <;> norm_num
  · rw [hcnt]
    unfold sF
    rw [Fin.sum_univ_two, Fin.sum_univ_two]
    dsimp only
    rw [(after_id _).1, (after_id _).2, (after_swap _).1, (after_swap _).2]
    have := coin_numbers
    norm_num
    linarith

/-! ## Examples -/

omit [NeZero K] in
/-- There is such a sort. -/
theorem sort_exists : ∃ sort : (Fin K → ℝ) → Equiv.Perm (Fin K), SortLaw sort := by
  refine ⟨fun n => Tuple.sort fun k => -n k, fun n i j h => ?_⟩
  have := Tuple.monotone_sort (fun k => -n k) h
  simpa using this

example : ∃ s' g', (SBCat.create 2 3).step (fun n => Tuple.sort fun k => -n k) (coinBatch 2 5) 100 1 = .ok s' ∧
    s'.elbo (coinBatch 2 5) 100 = .ok g' ∧ StickPrior 3 s' := by
  obtain ⟨s', g', e, p, _, e', _⟩ := C158_best (fun n : Fin 2 → ℝ => Tuple.sort fun k => -n k)
    (fun n i j h => by have := Tuple.monotone_sort (fun k => -n k) h; simpa using this)
    (SBCat.create 2 3) 3 (by norm_num) (fun _ => rfl) (coinBatch 2 5) (by
      intro x hx k
      rcases List.mem_append.1 hx with h | h <;> rw [(List.mem_replicate.1 h).2] <;> dsimp only <;> split_ifs <;> norm_num) (by decide) 100
  exact ⟨s', g', e, e', p⟩

/-- A mixture of two categorical models with stick-breaking weights, whose first step changes the ordering. -/
noncomputable def demoSBMix : SBMixState (familySet (dirFam 2) 2) :=
  ⟨SBCat.create 2 1, fun m => ⟨[1, 1], if m = 0 then [4, 1] else [1 / 3, 1]⟩⟩

example : ∃ st' g g', sbMixTrain (fun n : Fin 2 → ℝ => Tuple.sort fun k => -n k) (familySet (dirFam 2) 2)
      [[0, 1], [0, 1], [2, 5]] 100 demoSBMix 7 = .ok st' ∧
    sbMixElbo (familySet (dirFam 2) 2) demoSBMix [[0, 1], [0, 1], [2, 5]] 100 = .ok g ∧
    sbMixElbo (familySet (dirFam 2) 2) st' [[0, 1], [0, 1], [2, 5]] 100 = .ok g' ∧ g ≤ g' := by
  obtain ⟨st', g, g', e, _, _, _, a, b, c⟩ := C158_mixture_training (fun n : Fin 2 → ℝ => Tuple.sort fun k => -n k)
    (fun n i j h => by have := Tuple.monotone_sort (fun k => -n k) h; simpa using this) _ _ _
    (C87_categoricalset (by norm_num) 2) [[0, 1], [0, 1], [2, 5]] (by
      intro x hx
      simp at hx
      rcases hx with rfl | rfl <;> refine ⟨rfl, ?_⟩ <;> simp) (by simp) 100 7 demoSBMix 1 one_pos (fun _ => rfl)
    (fun _ => ⟨one_pos, one_pos⟩) (by
      intro m
      constructor
      · refine ⟨rfl, ?_⟩; simp [demoSBMix]
      · unfold demoSBMix
        dsimp only
        split_ifs <;> refine ⟨rfl, ?_⟩ <;> simp)
  exact ⟨st', g, g', e, a, b, c⟩

/-- A step with learning rate `1/3` which keeps the ordering. -/
example : ∃ s' g g', (SBCat.create 2 3).step (fun n => Tuple.sort fun k => -n k) (coinBatch 5 2) (-1) (1 / 3) = .ok s' ∧
    (SBCat.create 2 3).elbo (coinBatch 5 2) (-1) = .ok g ∧ s'.elbo (coinBatch 5 2) (-1) = .ok g' ∧
    (s'.ordering = 1 → g ≤ g') := by
  obtain ⟨s', g, g', e, _, _, a, b, c⟩ := C158_step_partial (fun n : Fin 2 → ℝ => Tuple.sort fun k => -n k)
    (fun n i j h => by have := Tuple.monotone_sort (fun k => -n k) h; simpa using this)
    (SBCat.create 2 3) 3 (by norm_num) (fun _ => rfl) (fun _ => ⟨by norm_num [SBCat.create], by norm_num [SBCat.create]⟩)
    (coinBatch 5 2) (by
      intro x hx k
      rcases List.mem_append.1 hx with h | h <;> rw [(List.mem_replicate.1 h).2] <;> dsimp only <;> split_ifs <;> norm_num)
    (by decide) (-1) (1 / 3) (by norm_num) (by norm_num)
  exact ⟨s', g, g', e, a, b, fun h => c (.inr h)⟩

/-- A mixture step which keeps the ordering. -/
example (st' : SBMixState (familySet (dirFam 2) 2))
    (e : sbMixStep (fun _ => 1) (familySet (dirFam 2) 2) demoSBMix [[0, 1], [2, 5]] 100 (1 / 3) = .ok st') :
    ∃ g g', sbMixElbo (familySet (dirFam 2) 2) demoSBMix [[0, 1], [2, 5]] 100 = .ok g ∧
      sbMixElbo (familySet (dirFam 2) 2) st' [[0, 1], [2, 5]] 100 = .ok g' ∧ g ≤ g' := by
  have ho : st'.weights.ordering = 1 := by
    revert e
    unfold sbMixStep
    generalize batchScale _ _ = r1
    cases r1 with
    | error _ => intro e; cases e
    | ok sc =>
      rw [ok_bind]
      generalize (List.mapM (sbMixOut (familySet (dirFam 2) 2) demoSBMix) [[0, 1], [2, 5]]) = r2
      cases r2 with
      | error _ => intro e; cases e
      | ok outs =>
        rw [ok_bind]
        dsimp only
        generalize (familySet (dirFam 2) 2).step _ _ _ _ = r3
        cases r3 with
        | error _ => intro e; cases e
        | ok s => intro e; rw [← Except.ok.inj e]; rfl
  exact (C158_mixture_step_partial (fun _ => 1) _ _ _ (C87_categoricalset (by norm_num) 2) [[0, 1], [2, 5]] (by
      intro x hx
      simp at hx
      rcases hx with rfl | rfl <;> refine ⟨rfl, ?_⟩ <;> simp) (by simp) 100 (1 / 3) (by norm_num) (by norm_num)
    demoSBMix st' ⟨fun _ => ⟨one_pos, one_pos⟩, fun _ => ⟨one_pos, one_pos⟩⟩ (by
      intro m
      constructor
      · refine ⟨rfl, ?_⟩; simp [demoSBMix]
      · unfold demoSBMix
        dsimp only
        split_ifs <;> refine ⟨rfl, ?_⟩ <;> simp) e ho).2.2

end Verif.Props
