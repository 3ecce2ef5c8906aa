import Verif.Lemmas.StickFit
import Verif.Props.SBTrain
import Verif.Props.WeightFit

/-!
# C182: what training makes of stick-breaking weights
-/

namespace Verif.Props

open Finset Verif Verif.VB Verif.Dists Verif.DistSpec Verif.Spec

variable {K : ℕ} [NeZero K]

/-- **C182.** Take stick-breaking weights of concentration `α` and one full step on any data, `n k` being the (scaled)
count of component `k`. The components are put in the order of decreasing counts, and along this order both the mean
weights (`eps` being the constant added to the norms) and the weights used for inference strictly decrease; from a
component to the next one, `T` being the count of all those after the first of the two, the mean is multiplied by
`(1 + n j)/(1 + n i) · (α + T)/(1 + α + T + eps)` and the weight used for inference by
`exp (ψ (1 + n j) - ψ (1 + n i) - 1/(α + T))`. -/
theorem C182_order (sort : (Fin K → ℝ) → Equiv.Perm (Fin K)) (hsort : SortLaw sort) (s : SBCat K) (α : ℝ) (hα : 0 < α)
    (hp : StickPrior α s) (eps : ℝ) (he : 0 ≤ eps) (data : List (Fin K → ℝ)) (hd : ∀ x ∈ data, ∀ k, 0 ≤ x k)
    (datasize : ℤ) (scale : ℝ) (hsc : batchScale data.length datasize = .ok scale) (hs0 : 0 ≤ scale)
    (n : Fin K → ℝ) (hn : ∀ k, n k = scale * (data.map fun x => x k).sum) :
    ∃ s', s.step sort data datasize 1 = .ok s'
      ∧ (∀ i j, RankedAfter s'.ordering i j → n j ≤ n i
          ∧ sbMean eps s'.ordering s'.post j < sbMean eps s'.ordering s'.post i ∧ s'.logWeights j < s'.logWeights i)
      ∧ (∀ i j, n j < n i → sbMean eps s'.ordering s'.post j < sbMean eps s'.ordering s'.post i
          ∧ s'.logWeights j < s'.logWeights i)
      ∧ ∀ i j, (s'.ordering.symm j).val = (s'.ordering.symm i).val + 1 →
          sbMean eps s'.ordering s'.post j = sbMean eps s'.ordering s'.post i * ((1 + n j) / (1 + n i)
            * ((α + countAfter s'.ordering n i) / (1 + α + countAfter s'.ordering n i + eps)))
          ∧ Real.exp (s'.logWeights j) = Real.exp (s'.logWeights i)
            * Real.exp (digamma (1 + n j) - digamma (1 + n i) - 1 / (α + countAfter s'.ordering n i)) := by
  have hn0 : ∀ k, 0 ≤ n k := fun k => by rw [hn]; exact counts_nonneg scale hs0 data hd k
  obtain rfl : n = fun k => scale * (data.map fun x => x k).sum := funext hn
  set n : Fin K → ℝ := fun k => scale * (data.map fun x => x k).sum
  refine ⟨s.update sort n 1, by unfold SBCat.step; rw [hsc]; rfl, ?_⟩
  have hpost : ∀ k, (s.update sort n 1).post k = (1 + n k, α + countAfter (s.update sort n 1).ordering n k) := by
    intro k
    rw [update_post, hp k]
    exact Prod.ext (by dsimp only; ring) (by show _ = α + countAfter (sort n) n k; dsimp only; ring)
  have hσ : SortsDesc n (s.update sort n 1).ordering := hsort n
  set s' := s.update sort n 1
  set σ := s'.ordering
  have hm : s'.post = fun k => (1 + n k, α + countAfter σ n k) := funext hpost
  have ht := tail_nonneg σ n hn0
  have hmean : ∀ i, sbMean eps σ s'.post (σ i) = (1 + n (σ i)) / (1 + α + tail σ n i + eps)
      * ∏ j ∈ range i, leftOver α eps (tail σ n) j := fun i => by rw [hm]; exact stick_mean σ n α eps i
  have hlog := stick_log s' n hn0 α hα hpost
  have hnext : ∀ i j : Fin K, j.val = i.val + 1 →
      sbMean eps σ s'.post (σ j) = sbMean eps σ s'.post (σ i) * ((1 + n (σ j)) / (1 + n (σ i))
            * ((α + countAfter σ n (σ i)) / (1 + α + countAfter σ n (σ i) + eps)))
      ∧ s'.logWeights (σ j) = s'.logWeights (σ i)
          + (digamma (1 + n (σ j)) - digamma (1 + n (σ i)) - 1 / (α + countAfter σ n (σ i))) := by
    intro i j hij
    have h1 := hn0 (σ i)
    have h2 := countAfter_nonneg σ n hn0 (σ i)
    constructor
    · rw [hmean, hmean, hij, Finset.prod_range_succ, tail_succ]
      unfold leftOver
      rw [tail_succ]
      have h3 : 0 < 1 + α + tail σ n i + eps := by have := ht i; linarith
      have h4 : 0 < 1 + α + countAfter σ n (σ i) + eps := by linarith
      have h5 : 0 < 1 + n (σ i) := by linarith
      field_simp
    · rw [hlog, hlog, hij, Finset.sum_range_succ, tail_succ]
      have h3 := digamma_add_one (show 0 < α + countAfter σ n (σ i) by linarith)
      rw [show α + countAfter σ n (σ i) + 1 = 1 + α + countAfter σ n (σ i) by ring] at h3
      show digamma (1 + n (σ j)) - digamma (1 + α + countAfter σ n (σ i)) + (_ + (digamma (α + countAfter σ n (σ i)) - _)) = _
      rw [h3]
      ring
  have hpos : ∀ i, 0 < sbMean eps σ s'.post (σ i) := by
    intro i
    rw [hmean]
    have h1 := hn0 (σ i)
    have hD : ∀ m : ℕ, 0 < 1 + α + tail σ n m + eps := fun m => by have := ht m; linarith
    refine mul_pos (div_pos (by linarith) (hD _)) (Finset.prod_pos fun j _ => ?_)
    unfold leftOver
    exact div_pos (by have := ht (j + 1); linarith) (hD _)
  have hanti : ∀ i j : Fin K, i < j → sbMean eps σ s'.post (σ j) < sbMean eps σ s'.post (σ i)
      ∧ s'.logWeights (σ j) < s'.logWeights (σ i) := by
    have hlt : ∀ i j : Fin K, j.val = i.val + 1 → sbMean eps σ s'.post (σ j) < sbMean eps σ s'.post (σ i)
      ∧ s'.logWeights (σ j) < s'.logWeights (σ i) := by
      intro i j hij
      obtain ⟨e1, e2⟩ := hnext i j hij
      have h1 := hn0 (σ i)
      have h1' := hn0 (σ j)
      have h2 := countAfter_nonneg σ n hn0 (σ i)
      have h3 : n (σ j) ≤ n (σ i) := hσ i j (by show i.val ≤ j.val; omega)
      constructor
      · rw [e1]
        refine mul_lt_of_lt_one_right (hpos i) ?_
        have a1 : (1 + n (σ j)) / (1 + n (σ i)) ≤ 1 := (div_le_one (by linarith)).2 (by linarith)
        have a2 : (α + countAfter σ n (σ i)) / (1 + α + countAfter σ n (σ i) + eps) < 1 := (div_lt_one (by linarith)).2 (by linarith)
        have a3 : 0 < (1 + n (σ j)) / (1 + n (σ i)) := div_pos (by linarith) (by linarith)
        have a4 : 0 ≤ (α + countAfter σ n (σ i)) / (1 + α + countAfter σ n (σ i) + eps) := div_nonneg (by linarith) (by linarith)
        nlinarith
      · rw [e2]
        have a1 := (digamma_le_iff (show 0 < 1 + n (σ j) by linarith) (show 0 < 1 + n (σ i) by linarith)).2 (by linarith)
        have a2 : 0 < 1 / (α + countAfter σ n (σ i)) := one_div_pos.2 (by linarith)
        linarith
    intro i j hij
    exact ⟨anti_of_next (fun i => sbMean eps σ s'.post (σ i)) (fun i j h => (hlt i j h).1) i j hij,
      anti_of_next (fun i => s'.logWeights (σ i)) (fun i j h => (hlt i j h).2) i j hij⟩
  have hrank : ∀ i j, RankedAfter σ i j → n j ≤ n i
      ∧ sbMean eps σ s'.post j < sbMean eps σ s'.post i ∧ s'.logWeights j < s'.logWeights i := by
    intro i j hij
    have h1 := hanti (σ.symm i) (σ.symm j) hij
    have h2 := hσ (σ.symm i) (σ.symm j) (le_of_lt hij)
    simp only [Equiv.apply_symm_apply] at h1 h2
    exact ⟨h2, h1⟩
  refine ⟨hrank, ?_, ?_⟩
  · intro i j hij
    refine (hrank i j ?_).2
    by_contra hc
    have h2 := hσ (σ.symm j) (σ.symm i) (not_lt.1 hc)
    simp only [Equiv.apply_symm_apply] at h2
    linarith
  · intro i j hij
    obtain ⟨h1, h2⟩ := hnext (σ.symm i) (σ.symm j) hij
    simp only [Equiv.apply_symm_apply] at h1 h2
    exact ⟨h1, by rw [h2, Real.exp_add]⟩

/-- **C182 (unused components).** The components without data come last: from one of them to the next one the mean weight is
multiplied by `α / (1 + α + eps)` and the weight used for inference by `exp (-1/α)`. As soon as there are data,
all of them together have the mean weight `α / (1 + α + N + eps)` at most, and `α / (1 + α + N)` at most is used for
inference, `N` being the total count. -/
theorem C182_unused (sort : (Fin K → ℝ) → Equiv.Perm (Fin K)) (hsort : SortLaw sort) (s : SBCat K) (α : ℝ) (hα : 0 < α)
    (hp : StickPrior α s) (eps : ℝ) (he : 0 ≤ eps) (data : List (Fin K → ℝ)) (hd : ∀ x ∈ data, ∀ k, 0 ≤ x k)
    (datasize : ℤ) (scale : ℝ) (hsc : batchScale data.length datasize = .ok scale) (hs0 : 0 ≤ scale)
    (n : Fin K → ℝ) (hn : ∀ k, n k = scale * (data.map fun x => x k).sum) :
    ∃ s', s.step sort data datasize 1 = .ok s'
      ∧ (∀ i j d, n i = 0 → (s'.ordering.symm j).val = (s'.ordering.symm i).val + d → n j = 0
          ∧ sbMean eps s'.ordering s'.post j = sbMean eps s'.ordering s'.post i * (α / (1 + α + eps)) ^ d
          ∧ Real.exp (s'.logWeights j) = Real.exp (s'.logWeights i) * Real.exp (-1 / α) ^ d)
      ∧ (0 < ∑ k, n k →
          ∑ k with n k = 0, sbMean eps s'.ordering s'.post k ≤ α / (1 + α + (∑ k, n k) + eps)
          ∧ ∑ k with n k = 0, Real.exp (s'.logWeights k) ≤ α / (1 + α + ∑ k, n k)) := by
  have hn0 : ∀ k, 0 ≤ n k := fun k => by rw [hn]; exact counts_nonneg scale hs0 data hd k
  obtain ⟨s', h1, h2, -, h4⟩ := C182_order sort hsort s α hα hp eps he data hd datasize scale hsc hs0 n hn
  refine ⟨s', h1, ?_, ?_⟩
  · have hT : ∀ i, n i = 0 → countAfter s'.ordering n i = 0 := by
      intro i hi
      refine Finset.sum_eq_zero fun j hj => le_antisymm ?_ (hn0 j)
      have := (h2 i j (Finset.mem_filter.1 hj).2).1
      rwa [hi] at this
    have hstep : ∀ a b : Fin K, n (s'.ordering a) = 0 → b.val = a.val + 1 → n (s'.ordering b) = 0
        ∧ sbMean eps s'.ordering s'.post (s'.ordering b) = sbMean eps s'.ordering s'.post (s'.ordering a) * (α / (1 + α + eps))
        ∧ Real.exp (s'.logWeights (s'.ordering b)) = Real.exp (s'.logWeights (s'.ordering a)) * Real.exp (-1 / α) := by
      intro a b ha hab
      have hb : n (s'.ordering b) = 0 := by
        refine le_antisymm ?_ (hn0 _)
        rw [← ha]
        refine (h2 _ _ ?_).1
        unfold RankedAfter
        rw [Equiv.symm_apply_apply, Equiv.symm_apply_apply]
        show a.val < b.val
        omega
      obtain ⟨e1, e2⟩ := h4 (s'.ordering a) (s'.ordering b) (by rw [Equiv.symm_apply_apply, Equiv.symm_apply_apply]; exact hab)
      rw [hT _ ha, ha, hb] at e1 e2
      refine ⟨hb, ?_, ?_⟩
      · rw [e1]
        simp
      · rw [e2]
        congr 2
        rw [add_zero]
        ring
    intro i j d hi hd'
    have hi' : n (s'.ordering (s'.ordering.symm i)) = 0 := by rwa [Equiv.apply_symm_apply]
    obtain ⟨a1, a2⟩ := pow_of_next (fun a => sbMean eps s'.ordering s'.post (s'.ordering a)) (α / (1 + α + eps))
      (fun a => n (s'.ordering a) = 0) (fun a b ha hab => ⟨(hstep a b ha hab).1, (hstep a b ha hab).2.1⟩) _ _ d hi' hd'
    obtain ⟨-, a3⟩ := pow_of_next (fun a => Real.exp (s'.logWeights (s'.ordering a))) (Real.exp (-1 / α))
      (fun a => n (s'.ordering a) = 0) (fun a b ha hab => ⟨(hstep a b ha hab).1, (hstep a b ha hab).2.2⟩) _ _ d hi' hd'
    simp only [Equiv.apply_symm_apply] at a1 a2 a3
    exact ⟨a1, a2, a3⟩
  · intro hN
    obtain rfl : n = fun k => scale * (data.map fun x => x k).sum := funext hn
    set n : Fin K → ℝ := fun k => scale * (data.map fun x => x k).sum
    have hs' : s' = s.update sort n 1 := by
      unfold SBCat.step at h1
      rw [hsc] at h1
      exact (Except.ok.inj h1).symm
    have hpost : ∀ k, s'.post k = (1 + n k, α + countAfter s'.ordering n k) := by
      intro k
      rw [hs', update_post, hp k]
      exact Prod.ext (by dsimp only; ring) (by show _ = α + countAfter (sort n) n k; dsimp only; ring)
    have hm : s'.post = fun k => (1 + n k, α + countAfter s'.ordering n k) := funext hpost
    have ht := tail_nonneg s'.ordering n hn0
    have hbound : ∀ e : ℝ, 0 ≤ e → ∑ k with n k = 0, sbMean e s'.ordering s'.post k ≤ α / (1 + α + (∑ k, n k) + e) := by
      intro e he'
      have hex : ∃ m, tail s'.ordering n m = 0 := ⟨K, tail_top _ _⟩
      classical
      obtain ⟨R, hR, hRmin⟩ : ∃ R, tail s'.ordering n R = 0 ∧ ∀ m, tail s'.ordering n m = 0 → R ≤ m :=
        ⟨Nat.find hex, Nat.find_spec hex, fun m h => Nat.find_min' hex h⟩
      have hR0 : R ≠ 0 := by
        rintro rfl
        rw [tail_zero] at hR
        linarith
      obtain ⟨r, rfl⟩ := Nat.exists_eq_succ_of_ne_zero hR0
      have hA : ∀ k ∈ univ.filter (fun k => n k = 0), r + 1 ≤ (s'.ordering.symm k).val := by
        intro k hk
        have hk0 := (Finset.mem_filter.1 hk).2
        refine hRmin _ ?_
        rw [tail_eq, Equiv.apply_symm_apply, hk0, zero_add]
        refine Finset.sum_eq_zero fun j hj => le_antisymm ?_ (hn0 j)
        have := (h2 k j (Finset.mem_filter.1 hj).2).1
        rwa [hk0] at this
      rw [hm]
      refine (sum_from_rank s'.ordering n hn0 α e hα he' _ (r + 1) hA).trans ?_
      refine (prod_leftOver α e hα he' (tail s'.ordering n) ht r).trans (le_of_eq ?_)
      rw [show tail s'.ordering n (r + 1) = 0 from hR, tail_zero, add_zero]
    refine ⟨hbound eps he, ?_⟩
    have hv : ∀ k, 0 < (s'.post k).1 ∧ 0 < (s'.post k).2 := by
      intro k
      rw [hpost]
      exact ⟨by have := hn0 k; dsimp only; linarith, by have := countAfter_nonneg s'.ordering n hn0 k; dsimp only; linarith⟩
    have h0 := hbound 0 le_rfl
    rw [add_zero] at h0
    exact (Finset.sum_le_sum fun k _ => exp_log_le_mean s' hv k).trans h0

-- three components, two frames in the first one and one in the last: the other one has less weight than both, and the mean
-- weight it keeps is at most 1/5
example (sort : (Fin 3 → ℝ) → Equiv.Perm (Fin 3)) (hsort : SortLaw sort) :
    ∃ s', (SBCat.create 3 1).step sort [![1, 0, 0], ![1, 0, 0], ![0, 0, 1]] (-1) 1 = .ok s'
      ∧ sbMean 0 s'.ordering s'.post 2 < sbMean 0 s'.ordering s'.post 0 ∧ s'.logWeights 1 < s'.logWeights 2
      ∧ sbMean 0 s'.ordering s'.post 1 ≤ 1 / 5 := by
  have hsc : batchScale [![1, 0, 0], ![1, 0, 0], (![0, 0, 1] : Fin 3 → ℝ)].length (-1) = .ok 1 := by
    unfold batchScale
    norm_num
  have hd : ∀ x ∈ [![1, 0, 0], ![1, 0, 0], (![0, 0, 1] : Fin 3 → ℝ)], ∀ k, 0 ≤ x k := by
    intro x hx k
    simp only [List.mem_cons, List.not_mem_nil, or_false] at hx
    rcases hx with rfl | rfl | rfl <;> fin_cases k <;> norm_num
  have hn : ∀ k, (![2, 0, 1] : Fin 3 → ℝ) k = 1 * ([![1, 0, 0], ![1, 0, 0], (![0, 0, 1] : Fin 3 → ℝ)].map fun x => x k).sum := by
    intro k
    fin_cases k <;> norm_num
  obtain ⟨s', h1, -, h2, -⟩ := C182_order sort hsort (SBCat.create 3 1) 1 one_pos (C158_create 1 one_pos).1 0 le_rfl _ hd (-1) 1
    hsc zero_le_one _ hn
  obtain ⟨s'', h3, -, h4⟩ := C182_unused sort hsort (SBCat.create 3 1) 1 one_pos (C158_create 1 one_pos).1 0 le_rfl _ hd (-1) 1
    hsc zero_le_one _ hn
  obtain rfl : s'' = s' := by
    rw [h1] at h3
    exact (Except.ok.inj h3).symm
  have e0 : (![2, 0, 1] : Fin 3 → ℝ) 0 = 2 := rfl
  have e1 : (![2, 0, 1] : Fin 3 → ℝ) 1 = 0 := rfl
  have e2 : (![2, 0, 1] : Fin 3 → ℝ) 2 = 1 := rfl
  refine ⟨s'', h1, (h2 0 2 (by rw [e0, e2]; norm_num)).1, (h2 2 1 (by rw [e1, e2]; norm_num)).2, ?_⟩
  have h5 := (h4 (by rw [Fin.sum_univ_three, e0, e1, e2]; norm_num)).1
  rw [Fin.sum_univ_three, show (univ.filter fun k : Fin 3 => (![2, 0, 1] : Fin 3 → ℝ) k = 0) = {1} by
    ext k
    fin_cases k <;> simp] at h5
  rw [Finset.sum_singleton, e0, e1, e2] at h5
  refine h5.trans (le_of_eq ?_)
  norm_num

end Verif.Props
