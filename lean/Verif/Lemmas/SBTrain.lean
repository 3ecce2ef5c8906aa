import Verif.Lemmas.VBSets
import Verif.Lemmas.StickBreaking
import Verif.Props.StickBreaking
import Verif.Spec.SBTrain

/-!
# Lemmas on the training of stick-breaking weights
-/

namespace Verif.VB

open Real Finset Verif.Dists Verif.DistSpec Verif.Spec Verif.Props

variable {X : Type} {K : ℕ}

/-! ## One stick -/

/-- The log-normaliser of a Beta. -/
noncomputable def bA (p : ℝ × ℝ) : ℝ := lgamma p.1 + lgamma p.2 - lgamma (p.1 + p.2)

/-- `E[ln v]` and `E[ln (1 - v)]`. -/
noncomputable def bE1 (p : ℝ × ℝ) : ℝ := digamma p.1 - digamma (p.1 + p.2)
noncomputable def bE2 (p : ℝ × ℝ) : ℝ := digamma p.2 - digamma (p.1 + p.2)

/-- The divergence of two Beta densities. -/
noncomputable def bK (p q : ℝ × ℝ) : ℝ := bA q - bA p - ((q.1 - p.1) * bE1 p + (q.2 - p.2) * bE2 p)

theorem bK_eq (p q : ℝ × ℝ) : (dirFam 2).kl [p.1, p.2] [q.1, q.2] = .ok (bK p q) := by
  unfold Family.kl dirFam
  dsimp only
  rw [if_neg (by simp)]
  simp only [ok_bind]
  rw [if_neg (by simp [dirNatural, dirExpStats])]
  congr 1
  simp [dirNatural, dirExpStats, dirLogNorm, vdot, vsub, bK, bA, bE1, bE2]
  ring

theorem bK_nonneg (p q : ℝ × ℝ) (hp : 0 < p.1 ∧ 0 < p.2) (hq : 0 < q.1 ∧ 0 < q.2) : 0 ≤ bK p q := by
  have v : ∀ p : ℝ × ℝ, 0 < p.1 ∧ 0 < p.2 → DirValid 2 [p.1, p.2] := by
    intro p h
    refine ⟨rfl, ?_⟩
    simp [h.1, h.2]
  have h1 := (dirConj (D := 2) (by norm_num)).kl_eq _ _ (v p hp) (v q hq)
  rw [bK_eq] at h1
  rw [Except.ok.inj h1]
  exact (dirConj (D := 2) (by norm_num)).kl_nonneg _ _ (v p hp) (v q hq)

/-- The part of the objective of one stick, with `n` counts for it and `t` after it. -/
noncomputable def bF (p0 : ℝ × ℝ) (n t : ℝ) (p : ℝ × ℝ) : ℝ := n * bE1 p + t * bE2 p - bK p p0

theorem bF_eq (p0 : ℝ × ℝ) (n t : ℝ) (p : ℝ × ℝ) :
    bF p0 n t p = bA (p0.1 + n, p0.2 + t) - bA p0 - bK p (p0.1 + n, p0.2 + t) := by
  unfold bF bK
  ring

theorem bK_self (p : ℝ × ℝ) : bK p p = 0 := by unfold bK; ring

/-- The gain of an update of one stick. -/
theorem bF_gain (p0 : ℝ × ℝ) (n t l : ℝ) (p : ℝ × ℝ) (hp : 0 < p.1 ∧ 0 < p.2) (h0 : 0 < l) (h1 : l ≤ 1)
    (hq : 0 < p0.1 + n ∧ 0 < p0.2 + t) :
    bF p0 n t p ≤ bF p0 n t ((1 - l) * p.1 + l * (p0.1 + n), (1 - l) * p.2 + l * (p0.2 + t)) := by
  have hl : 0 ≤ 1 - l := by linarith
  have hp' : 0 < (1 - l) * p.1 + l * (p0.1 + n) ∧ 0 < (1 - l) * p.2 + l * (p0.2 + t) :=
    ⟨by nlinarith [mul_nonneg hl hp.1.le, mul_pos h0 hq.1], by nlinarith [mul_nonneg hl hp.2.le, mul_pos h0 hq.2]⟩
  set p' : ℝ × ℝ := ((1 - l) * p.1 + l * (p0.1 + n), (1 - l) * p.2 + l * (p0.2 + t)) with hdef
  have a1 := bK_nonneg p p' hp hp'
  have a2 := bK_nonneg p' p hp' hp
  have key : l * (bF p0 n t p' - bF p0 n t p) = bK p p' + (1 - l) * bK p' p := by
    rw [bF_eq, bF_eq]
    unfold bK
    have e1 : p'.1 = (1 - l) * p.1 + l * (p0.1 + n) := rfl
    have e2 : p'.2 = (1 - l) * p.2 + l * (p0.2 + t) := rfl
    generalize bE1 p' = x1
    generalize bE2 p' = x2
    generalize bA p' = x3
    rw [e1, e2]
    ring
  have := mul_nonneg hl a2
  nlinarith

/-! ## All the sticks -/

/-- The objective of the sticks for the counts `n`. -/
noncomputable def sF (prior : Fin K → ℝ × ℝ) (n : Fin K → ℝ) (σ : Equiv.Perm (Fin K)) (post : Fin K → ℝ × ℝ) : ℝ :=
  ∑ k, bF (prior k) (n k) (countAfter σ n k) (post k)

theorem sbcat_kl_eq (s : SBCat K) : s.kl = .ok (∑ k, bK (s.post k) (s.prior k)) := by
  unfold SBCat.kl
  rw [seqFin_ok _ (fun k => bK (s.post k) (s.prior k)) fun k => bK_eq _ _]
  rfl

theorem sbExpLlh_eq [NeZero K] (σ : Equiv.Perm (Fin K)) (c : Fin K → ℝ × ℝ) (n : Fin K → ℝ)
    (hc : ∀ k, 0 < (c k).1 ∧ 0 < (c k).2) :
    sbExpLlh σ c n = ∑ k, (n k * bE1 (c k) + countAfter σ n k * bE2 (c k)) := by
  rw [(C80_stick_log_weights σ c hc).1 n]
  unfold countAfter
  simp only [mul_add, Finset.sum_add_distrib, Finset.mul_sum, Finset.sum_mul]
  congr 1
  simp only [Finset.sum_filter]
  rw [Finset.sum_comm]
  rfl

theorem sF_eq [NeZero K] (s : SBCat K) (hv : SticksValid s) (n : Fin K → ℝ) :
    sbExpLlh s.ordering s.post n - ∑ k, bK (s.post k) (s.prior k) = sF s.prior n s.ordering s.post := by
  rw [sbExpLlh_eq _ _ _ hv.post, ← Finset.sum_sub_distrib]
  rfl

theorem sbTransform_eq [NeZero K] (σ : Equiv.Perm (Fin K)) (n : Fin K → ℝ) (k : Fin K) :
    sbTransform σ n k = (n k, countAfter σ n k + n k) := by
  unfold sbTransform
  dsimp only
  rw [reverseOrdering_eq, flip_cumsum_flip, sum_shiftUp, sum_higher_rank σ n k, Equiv.apply_symm_apply]
  rfl

theorem update_post [NeZero K] (sort : (Fin K → ℝ) → Equiv.Perm (Fin K)) (s : SBCat K) (n : Fin K → ℝ) (l : ℝ) (k : Fin K) :
    (s.update sort n l).post k = ((1 - l) * (s.post k).1 + l * ((s.prior k).1 + n k),
      (1 - l) * (s.post k).2 + l * ((s.prior k).2 + countAfter (sort n) n k)) := by
  show betaUpdate _ _ (sbTransform _ _ k) l = _
  rw [sbTransform_eq, betaUpdate_closed]

theorem countAfter_nonneg (σ : Equiv.Perm (Fin K)) (n : Fin K → ℝ) (hn : ∀ k, 0 ≤ n k) (k : Fin K) :
    0 ≤ countAfter σ n k := Finset.sum_nonneg fun j _ => hn j

theorem update_valid [NeZero K] (sort : (Fin K → ℝ) → Equiv.Perm (Fin K)) (s : SBCat K) (hv : SticksValid s)
    (n : Fin K → ℝ) (hn : ∀ k, 0 ≤ n k) (l : ℝ) (h0 : 0 < l) (h1 : l ≤ 1) : SticksValid (s.update sort n l) := by
  refine ⟨hv.prior, fun k => ?_⟩
  rw [update_post]
  have hl : 0 ≤ 1 - l := by linarith
  have c := countAfter_nonneg (sort n) n hn k
  have p := hv.prior k
  have q := hv.post k
  have a := hn k
  constructor
  · have : 0 < (s.prior k).1 + n k := by linarith [p.1]
    show 0 < (1 - l) * (s.post k).1 + l * ((s.prior k).1 + n k)
    nlinarith [mul_nonneg hl q.1.le, mul_pos h0 this]
  · have : 0 < (s.prior k).2 + countAfter (sort n) n k := by linarith [p.2]
    show 0 < (1 - l) * (s.post k).2 + l * ((s.prior k).2 + countAfter (sort n) n k)
    nlinarith [mul_nonneg hl q.2.le, mul_pos h0 this]

/-- An update which keeps the ordering. -/
theorem sF_same [NeZero K] (sort : (Fin K → ℝ) → Equiv.Perm (Fin K)) (s : SBCat K) (hv : SticksValid s)
    (n : Fin K → ℝ) (hn : ∀ k, 0 ≤ n k) (l : ℝ) (h0 : 0 < l) (h1 : l ≤ 1) :
    sF s.prior n (sort n) s.post ≤ sF s.prior n (sort n) (s.update sort n l).post := by
  unfold sF
  refine Finset.sum_le_sum fun k _ => ?_
  rw [update_post]
  have c := countAfter_nonneg (sort n) n hn k
  have p := hv.prior k
  exact bF_gain _ _ _ l _ (hv.post k) h0 h1 ⟨by linarith [p.1, hn k], by linarith [p.2]⟩

/-- The best objective for an ordering. -/
noncomputable def sBest (prior : Fin K → ℝ × ℝ) (n : Fin K → ℝ) (σ : Equiv.Perm (Fin K)) : ℝ :=
  ∑ k, (bA ((prior k).1 + n k, (prior k).2 + countAfter σ n k) - bA (prior k))

theorem sF_le_best (prior post : Fin K → ℝ × ℝ) (hp : ∀ k, 0 < (prior k).1 ∧ 0 < (prior k).2)
    (hq : ∀ k, 0 < (post k).1 ∧ 0 < (post k).2) (n : Fin K → ℝ) (hn : ∀ k, 0 ≤ n k) (σ : Equiv.Perm (Fin K)) :
    sF prior n σ post ≤ sBest prior n σ := by
  unfold sF sBest
  refine Finset.sum_le_sum fun k _ => ?_
  rw [bF_eq]
  have c := countAfter_nonneg σ n hn k
  have := bK_nonneg (post k) ((prior k).1 + n k, (prior k).2 + countAfter σ n k) (hq k)
    ⟨by show 0 < (prior k).1 + n k; linarith [(hp k).1, hn k], by
      show 0 < (prior k).2 + countAfter σ n k; linarith [(hp k).2]⟩
  linarith

theorem sF_full [NeZero K] (sort : (Fin K → ℝ) → Equiv.Perm (Fin K)) (s : SBCat K) (n : Fin K → ℝ) :
    sF s.prior n (sort n) (s.update sort n 1).post = sBest s.prior n (sort n) := by
  unfold sF sBest
  refine Finset.sum_congr rfl fun k _ => ?_
  have e : (s.update sort n 1).post k = ((s.prior k).1 + n k, (s.prior k).2 + countAfter (sort n) n k) := by
    rw [update_post]
    ext <;> ring
  rw [e, bF_eq, bK_self, sub_zero]

/-! ## The best ordering -/

/-- The counts of the categories of rank at least `m`. -/
noncomputable def tail (σ : Equiv.Perm (Fin K)) (n : Fin K → ℝ) (m : ℕ) : ℝ :=
  ∑ k ∈ univ.filter (fun k => m ≤ (σ.symm k).val), n k

theorem tail_succ (σ : Equiv.Perm (Fin K)) (n : Fin K → ℝ) (i : Fin K) :
    tail σ n (i.val + 1) = countAfter σ n (σ i) := by
  unfold tail countAfter RankedAfter
  refine Finset.sum_congr ?_ fun _ _ => rfl
  ext k
  simp only [Finset.mem_filter, Finset.mem_univ, true_and, Equiv.symm_apply_apply, Fin.lt_def]
  omega

theorem tail_eq (σ : Equiv.Perm (Fin K)) (n : Fin K → ℝ) (i : Fin K) :
    tail σ n i.val = n (σ i) + countAfter σ n (σ i) := by
  rw [← tail_succ]
  unfold tail
  have : univ.filter (fun k => i.val ≤ (σ.symm k).val) =
      insert (σ i) (univ.filter fun k => i.val + 1 ≤ (σ.symm k).val) := by
    ext k
    simp only [Finset.mem_filter, Finset.mem_univ, true_and, Finset.mem_insert]
    constructor
    · intro h
      rcases h.eq_or_lt with h | h
      · left
        rw [← Equiv.symm_apply_eq]
        exact Fin.ext h.symm
      · right; exact h
    · rintro (rfl | h)
      · simp
      · omega
  rw [this, Finset.sum_insert (by simp)]

theorem tail_nonneg (σ : Equiv.Perm (Fin K)) (n : Fin K → ℝ) (hn : ∀ k, 0 ≤ n k) (m : ℕ) : 0 ≤ tail σ n m :=
  Finset.sum_nonneg fun j _ => hn j

/-- With decreasing counts, the last categories have the smallest total. -/
theorem tail_le (σ τ : Equiv.Perm (Fin K)) (n : Fin K → ℝ) (h : SortsDesc n σ) (i : Fin K) :
    tail σ n i.val ≤ tail τ n i.val := by
  unfold tail
  set A := univ.filter (fun k => i.val ≤ (σ.symm k).val) with hA
  set B := univ.filter (fun k => i.val ≤ (τ.symm k).val) with hB
  have card : ∀ ρ : Equiv.Perm (Fin K), (univ.filter (fun k => i.val ≤ (ρ.symm k).val)).card =
      (univ.filter (fun j : Fin K => i.val ≤ j.val)).card := by
    intro ρ
    refine Finset.card_nbij' ρ.symm ρ ?_ ?_ (fun _ _ => by simp) (fun _ _ => by simp)
    · intro a ha; simpa using ha
    · intro a ha; simpa using ha
  have hc : (A \ B).card = (B \ A).card := Finset.card_sdiff_comm ((card σ).trans (card τ).symm)
  rw [← Finset.sum_inter_add_sum_sdiff A B n, ← Finset.sum_inter_add_sum_sdiff B A n, Finset.inter_comm B A]
  refine add_le_add le_rfl ?_
  have h1 : ∑ k ∈ A \ B, n k ≤ (A \ B).card • n (σ i) := by
    refine Finset.sum_le_card_nsmul _ _ _ fun k hk => ?_
    have := (Finset.mem_filter.1 (Finset.mem_sdiff.1 hk).1).2
    have := h i (σ.symm k) (Fin.le_def.2 this)
    rwa [Equiv.apply_symm_apply] at this
  have h2 : (B \ A).card • n (σ i) ≤ ∑ k ∈ B \ A, n k := by
    refine Finset.card_nsmul_le_sum _ _ _ fun k hk => ?_
    have hk' := (Finset.mem_sdiff.1 hk).2
    rw [hA, Finset.mem_filter, not_and] at hk'
    have := hk' (Finset.mem_univ _)
    have := h (σ.symm k) i (Fin.le_def.2 (by omega))
    rwa [Equiv.apply_symm_apply] at this
  rw [hc] at h1
  exact h1.trans h2

theorem tail_top (σ : Equiv.Perm (Fin K)) (n : Fin K → ℝ) : tail σ n K = 0 := by
  unfold tail
  refine Finset.sum_eq_zero fun k hk => ?_
  have := (Finset.mem_filter.1 hk).2
  have := (σ.symm k).isLt
  omega

theorem tail_zero (σ : Equiv.Perm (Fin K)) (n : Fin K → ℝ) : tail σ n 0 = ∑ k, n k := by
  unfold tail
  exact Finset.sum_congr (by ext; simp) fun _ _ => rfl

/-- With the prior of a stick-breaking process the ordering only enters the best objective through the totals of the last
categories. -/
theorem sBest_eq (α : ℝ) (hα : 0 < α) (n : Fin K → ℝ) (hn : ∀ k, 0 ≤ n k) (σ : Equiv.Perm (Fin K)) :
    sBest (fun _ => (1, α)) n σ = (∑ k, (lgamma (1 + n k) - bA (1, α))) + lgamma α - lgamma (α + ∑ k, n k) -
      ∑ i : Fin K, log (α + tail σ n i.val) := by
  unfold sBest
  rw [← Equiv.sum_comp σ]
  have e : ∀ i : Fin K, bA ((1 : ℝ) + n (σ i), α + countAfter σ n (σ i)) - bA (1, α) =
      (lgamma (1 + n (σ i)) - bA (1, α)) + (lgamma (α + tail σ n (i.val + 1)) - lgamma (α + tail σ n i.val)) -
        log (α + tail σ n i.val) := by
    intro i
    have hpos : 0 < α + tail σ n i.val := by linarith [tail_nonneg σ n hn i.val]
    have := lgamma_add_one hpos
    rw [tail_succ]
    unfold bA
    dsimp only
    have h2 : 1 + n (σ i) + (α + countAfter σ n (σ i)) = α + tail σ n i.val + 1 := by rw [tail_eq]; ring
    rw [h2, this]
    ring
  dsimp only
  simp only [e]
  rw [Finset.sum_sub_distrib, Finset.sum_add_distrib, Equiv.sum_comp σ (fun k => lgamma (1 + n k) - bA (1, α)),
    Fin.sum_univ_eq_sum_range (fun m => lgamma (α + tail σ n (m + 1)) - lgamma (α + tail σ n m)) K,
    Finset.sum_range_sub (fun m => lgamma (α + tail σ n m)), tail_top, tail_zero, add_zero]
  ring

theorem sBest_le (α : ℝ) (hα : 0 < α) (n : Fin K → ℝ) (hn : ∀ k, 0 ≤ n k) (σ τ : Equiv.Perm (Fin K))
    (h : SortsDesc n σ) : sBest (fun _ => (1, α)) n τ ≤ sBest (fun _ => (1, α)) n σ := by
  rw [sBest_eq α hα n hn, sBest_eq α hα n hn]
  refine sub_le_sub_left (Finset.sum_le_sum fun i _ => ?_) _
  refine log_le_log (by linarith [tail_nonneg σ n hn i.val]) ?_
  linarith [tail_le σ τ n h i]

/-- The gain of an update of the sticks: the ordering is kept, or the update is a full one. -/
theorem sticks_gain [NeZero K] (sort : (Fin K → ℝ) → Equiv.Perm (Fin K)) (s : SBCat K) (hv : SticksValid s)
    (n : Fin K → ℝ) (hn : ∀ k, 0 ≤ n k) (l : ℝ) (h0 : 0 < l) (h1 : l ≤ 1)
    (h : sort n = s.ordering ∨ l = 1 ∧ SortsDesc n (sort n) ∧ ∃ α, 0 < α ∧ StickPrior α s) :
    sF s.prior n s.ordering s.post ≤ sF s.prior n (sort n) (s.update sort n l).post := by
  rcases h with h | ⟨rfl, hs, α, hα, hp⟩
  · rw [← h]
    exact sF_same sort s hv n hn l h0 h1
  · rw [sF_full]
    refine (sF_le_best _ _ hv.prior hv.post n hn _).trans ?_
    have e : s.prior = fun _ => (1, α) := funext hp
    rw [e]
    exact sBest_le α hα n hn _ _ hs

/-! ## Data -/

theorem sbExpLlh_logWeights [NeZero K] (s : SBCat K) (n : Fin K → ℝ) :
    sbExpLlh s.ordering s.post n = ∑ k, n k * s.logWeights k := by
  unfold SBCat.logWeights sbExpLlh
  refine Finset.sum_congr rfl fun k _ => ?_
  congr 1
  rw [Finset.sum_eq_single k]
  · simp
  · intro j _ hj; simp [hj]
  · intro h; exact absurd (Finset.mem_univ _) h

theorem sum_sbExpLlh [NeZero K] (s : SBCat K) (scale : ℝ) (data : List (Fin K → ℝ)) :
    scale * (data.map (sbExpLlh s.ordering s.post)).sum =
      sbExpLlh s.ordering s.post fun k => scale * (data.map fun x => x k).sum := by
  simp only [sbExpLlh_logWeights, mul_assoc, ← Finset.mul_sum]
  congr 1
  induction data with
  | nil => simp
  | cons x l ih => simp only [List.map_cons, List.sum_cons, ih, add_mul, Finset.sum_add_distrib, sbExpLlh_logWeights]

theorem elbo_eq [NeZero K] (s : SBCat K) (hv : SticksValid s) (data : List (Fin K → ℝ)) (datasize : ℤ) (scale : ℝ)
    (hs : batchScale data.length datasize = .ok scale) :
    s.elbo data datasize = .ok (sF s.prior (fun k => scale * (data.map fun x => x k).sum) s.ordering s.post) := by
  unfold SBCat.elbo
  rw [hs, ok_bind, sbcat_kl_eq, ok_bind, sum_sbExpLlh, sF_eq s hv]

theorem counts_nonneg (scale : ℝ) (hs : 0 ≤ scale) (data : List (Fin K → ℝ)) (hd : ∀ x ∈ data, ∀ k, 0 ≤ x k) (k : Fin K) :
    0 ≤ scale * (data.map fun x => x k).sum := by
  refine mul_nonneg hs (List.sum_nonneg ?_)
  intro v hv
  obtain ⟨x, hx, rfl⟩ := List.mem_map.1 hv
  exact hd x hx k

/-! ## Mixtures -/

/-- The counts which a batch gives to the weights of a mixture. -/
noncomputable def mixCounts [NeZero K] (inner : SetModel X K) (st : SBMixState inner) (scale : ℝ) (data : List X)
    (k : Fin K) : ℝ :=
  scale * (data.map fun x => (Mixture.mixLocal st.weights.logWeights (valueOf 0 (inner.llh st.comps x))).resps k).sum

theorem sbMix_step [NeZero K] (sort : (Fin K → ℝ) → Equiv.Perm (Fin K)) (inner : SetModel X K) (V : inner.State → Prop)
    (XV : X → Prop) (hin : Lawful inner V XV) (st : SBMixState inner) (hv : SticksValid st.weights) (hc : V st.comps)
    (data : List X) (hd : ∀ x ∈ data, XV x) (hne : data ≠ []) (datasize : ℤ) (l : ℝ) (h0 : 0 < l) (h1 : l ≤ 1)
    (hsort : ∀ scale, batchScale data.length datasize = .ok scale →
      sort (mixCounts inner st scale data) = st.weights.ordering ∨
      l = 1 ∧ SortsDesc (mixCounts inner st scale data) (sort (mixCounts inner st scale data)) ∧
        ∃ α, 0 < α ∧ StickPrior α st.weights) :
    ∃ st' g g', sbMixStep sort inner st data datasize l = .ok st' ∧ SticksValid st'.weights ∧ V st'.comps ∧
      st'.weights.prior = st.weights.prior ∧
      (∀ scale, batchScale data.length datasize = .ok scale →
        st'.weights.ordering = sort (mixCounts inner st scale data)) ∧
      sbMixElbo inner st data datasize = .ok g ∧ sbMixElbo inner st' data datasize = .ok g' ∧ g ≤ g' := by
  have hK : 1 ≤ K := Nat.pos_of_ne_zero (NeZero.ne K)
  obtain ⟨scale, hs, hspos⟩ := batchScale_pos (List.length_pos_iff.2 hne) datasize
  have hsort := hsort scale hs
  have hout : ∀ (st : SBMixState inner) x, V st.comps → XV x → sbMixOut inner st x =
      .ok (Mixture.mixLocal st.weights.logWeights (valueOf 0 (inner.llh st.comps x))) := by
    intro st x hv hx
    obtain ⟨v, h⟩ := hin.llh_ok st.comps x hv hx
    unfold sbMixOut
    rw [h]
    rfl
  have helbo : ∀ st : SBMixState inner, V st.comps → sbMixElbo inner st data datasize =
      .ok (scale * (data.map fun x => (Mixture.mixLocal st.weights.logWeights
        (valueOf 0 (inner.llh st.comps x))).value).sum -
        (valueOf 0 (inner.kl st.comps) + ∑ k, bK (st.weights.post k) (st.weights.prior k))) := by
    intro st hv
    obtain ⟨k, h, _⟩ := hin.kl_ok st.comps hv
    unfold sbMixElbo
    rw [hs, ok_bind, mapM_ok_map _ _ data fun x h => hout st x hv (hd x h), ok_bind, sbcat_kl_eq, h]
    show Except.ok _ = _
    rw [List.map_map]
    rfl
  set ρ : X → Fin K → ℝ := fun x => (Mixture.mixLocal st.weights.logWeights
    (valueOf 0 (inner.llh st.comps x))).resps with hρ
  have hρ0 : ∀ x k, 0 ≤ ρ x k := fun x k => (C44_responsibilities hK _ _).1.1 k
  have hn : ∀ k, 0 ≤ mixCounts inner st scale data k := by
    intro k
    refine mul_nonneg hspos.le (List.sum_nonneg ?_)
    intro v hv
    obtain ⟨x, hx, rfl⟩ := List.mem_map.1 hv
    exact hρ0 x k
  obtain ⟨s', s1, s2, s3⟩ := hin.step_ok st.comps (data.map fun x => (x, ρ x)) scale l hc (by
    intro r h
    obtain ⟨x, hx, rfl⟩ := List.mem_map.1 h
    exact ⟨hd x hx, hρ0 x⟩) hspos.le h0 h1
  have hg := sticks_gain sort st.weights hv _ hn l h0 h1 hsort
  have hv' := update_valid sort st.weights hv _ hn l h0 h1
  set w := st.weights.update sort (mixCounts inner st scale data) l with hw
  have hg' : sbExpLlh st.weights.ordering st.weights.post (mixCounts inner st scale data) -
      ∑ k, bK (st.weights.post k) (st.weights.prior k) ≤
      sbExpLlh w.ordering w.post (mixCounts inner st scale data) - ∑ k, bK (w.post k) (w.prior k) := by
    rw [sF_eq _ hv, sF_eq _ hv']
    exact hg
  refine ⟨⟨w, s'⟩, _, _, ?_, hv', s2, rfl, ?_, helbo st hc, helbo ⟨w, s'⟩ s2, ?_⟩
  · unfold sbMixStep
    rw [hs, ok_bind, mapM_ok_map _ _ data fun x h => hout st x hc (hd x h), ok_bind, zipWith_map_right]
    simp only [List.map_map]
    show (inner.step st.comps (data.map fun x => (x, ρ x)) scale l >>= _) = _
    rw [s1]
    rfl
  · intro sc h
    rw [hs] at h
    rw [← Except.ok.inj h]
    rfl
  · rw [List.map_map] at s3
    have s3' : valueOf 0 (inner.kl s') - valueOf 0 (inner.kl st.comps) ≤ scale *
        (data.map fun x => ∑ k, ρ x k * (valueOf 0 (inner.llh s' x) k -
          valueOf 0 (inner.llh st.comps x) k)).sum := s3
    have hcounts : ∀ c : SBCat K, sbExpLlh c.ordering c.post (mixCounts inner st scale data) =
        scale * (data.map fun x => ∑ k, ρ x k * c.logWeights k).sum := by
      intro c
      have e : mixCounts inner st scale data = fun k => scale * ((data.map ρ).map fun x => x k).sum := by
        funext k
        unfold mixCounts
        rw [List.map_map]
        rfl
      rw [e, ← sum_sbExpLlh c scale (data.map ρ), List.map_map]
      congr 2
      refine List.map_congr_left fun x _ => ?_
      exact sbExpLlh_logWeights c (ρ x)
    rw [hcounts, hcounts] at hg'
    have hA : ∀ x ∈ data, (∑ k, ρ x k * (valueOf 0 (inner.llh s' x) k -
          valueOf 0 (inner.llh st.comps x) k)) + (∑ k, ρ x k * w.logWeights k -
          ∑ k, ρ x k * st.weights.logWeights k) ≤
        (Mixture.mixLocal w.logWeights (valueOf 0 (inner.llh s' x))).value -
        (Mixture.mixLocal st.weights.logWeights (valueOf 0 (inner.llh st.comps x))).value := by
      intro x _
      refine le_trans (le_of_eq ?_) (local_gain hK st.weights.logWeights w.logWeights
        (valueOf 0 (inner.llh st.comps x)) (valueOf 0 (inner.llh s' x)))
      rw [← Finset.sum_sub_distrib, ← Finset.sum_add_distrib]
      refine Finset.sum_congr rfl fun k _ => ?_
      rw [hρ]
      ring
    have hB := mul_le_mul_of_nonneg_left (sum_map_le data _ _ hA) hspos.le
    rw [List.sum_map_add, mul_add, sum_map_sub', mul_sub, sum_map_sub', mul_sub] at hB
    dsimp only at hB hg' ⊢
    linarith

end Verif.VB
