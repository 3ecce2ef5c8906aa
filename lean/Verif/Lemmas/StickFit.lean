import Verif.Lemmas.SBTrain

/-!
# Lemmas on the weights of trained sticks
-/

namespace Verif.VB

open Finset Verif Verif.Dists Verif.DistSpec Verif.Spec Verif.Props

variable {K : ℕ}

/-- What is left over after the stick of rank `j`. -/
noncomputable def leftOver (α eps : ℝ) (t : ℕ → ℝ) (j : ℕ) : ℝ := (α + t (j + 1)) / (1 + α + t j + eps)

theorem prod_before (σ : Equiv.Perm (Fin K)) (u : Fin K → ℝ) (f : ℕ → ℝ) (hf : ∀ i : Fin K, u (σ i) = f i) (i : Fin K) :
    ∏ j ∈ univ.filter (fun j => RankedAfter σ j (σ i)), u j = ∏ j ∈ range i, f j := by
  rw [← prod_lower_rank σ u (σ i), Equiv.symm_apply_apply]
  refine Finset.prod_bij (fun (a : Fin K) _ => a.1) ?_ ?_ ?_ ?_
  · intro a ha
    exact mem_range.2 (Finset.mem_filter.1 ha).2
  · intro a _ b _ h
    exact Fin.ext h
  · intro b hb
    have := mem_range.1 hb
    exact ⟨⟨b, by omega⟩, Finset.mem_filter.2 ⟨Finset.mem_univ _, this⟩, rfl⟩
  · intro a _
    exact hf a

theorem sum_before (σ : Equiv.Perm (Fin K)) (u : Fin K → ℝ) (f : ℕ → ℝ) (hf : ∀ i : Fin K, u (σ i) = f i) (i : Fin K) :
    ∑ j ∈ univ.filter (fun j => RankedAfter σ j (σ i)), u j = ∑ j ∈ range i, f j := by
  refine Finset.sum_bij (fun (a : Fin K) _ => (σ.symm a).1) ?_ ?_ ?_ ?_
  · intro a ha
    have := (Finset.mem_filter.1 ha).2
    unfold RankedAfter at this
    rw [Equiv.symm_apply_apply] at this
    exact mem_range.2 this
  · intro a _ b _ h
    exact σ.symm.injective (Fin.ext h)
  · intro b hb
    have := mem_range.1 hb
    refine ⟨σ ⟨b, by omega⟩, Finset.mem_filter.2 ⟨Finset.mem_univ _, ?_⟩, by simp⟩
    unfold RankedAfter
    rw [Equiv.symm_apply_apply, Equiv.symm_apply_apply]
    exact this
  · intro a _
    rw [← hf, Equiv.apply_symm_apply]

/-- The mean weight of the stick of rank `i`. -/
theorem stick_mean [NeZero K] (σ : Equiv.Perm (Fin K)) (n : Fin K → ℝ) (α eps : ℝ) (i : Fin K) :
    sbMean eps σ (fun k => (1 + n k, α + countAfter σ n k)) (σ i)
      = (1 + n (σ i)) / (1 + α + tail σ n i + eps) * ∏ j ∈ range i, leftOver α eps (tail σ n) j := by
  rw [sbMean_eq]
  unfold stickWeight
  dsimp only
  rw [prod_before σ _ (leftOver α eps (tail σ n)) (by
    intro i
    unfold leftOver
    rw [tail_succ, tail_eq]
    congr 1
    ring)]
  rw [tail_eq]
  congr 2
  ring

/-- The expected log-weight of the stick of rank `i`. -/
theorem stick_log [NeZero K] (s : SBCat K) (n : Fin K → ℝ) (hn : ∀ k, 0 ≤ n k)
    (α : ℝ) (hα : 0 < α) (hs : ∀ k, s.post k = (1 + n k, α + countAfter s.ordering n k)) (i : Fin K) :
    s.logWeights (s.ordering i) = digamma (1 + n (s.ordering i)) - digamma (1 + α + tail s.ordering n i)
      + ∑ j ∈ range i, (digamma (α + tail s.ordering n (j + 1)) - digamma (1 + α + tail s.ordering n j)) := by
  have hv : ∀ k, 0 < (s.post k).1 ∧ 0 < (s.post k).2 := by
    intro k
    rw [hs]
    exact ⟨by have := hn k; dsimp only; linarith, by have := countAfter_nonneg s.ordering n hn k; dsimp only; linarith⟩
  unfold SBCat.logWeights
  rw [(C80_stick_log_weights s.ordering s.post hv).1,
    Finset.sum_eq_single (s.ordering i) (fun j _ hj => by simp [hj]) (by simp), Pi.single_eq_same, one_mul,
    sum_before s.ordering _ (fun j => digamma (α + tail s.ordering n (j + 1)) - digamma (1 + α + tail s.ordering n j)) (by
      intro i
      rw [hs, tail_succ, tail_eq]
      dsimp only
      congr 2
      ring), hs, tail_eq]
  dsimp only
  congr 3
  ring

/-- From each rank to the next one, hence along the ranks. -/
theorem anti_of_next (f : Fin K → ℝ) (h : ∀ i j : Fin K, j.val = i.val + 1 → f j < f i) (i j : Fin K) (hij : i < j) : f j < f i := by
  obtain ⟨d, hd⟩ : ∃ d, j.val = i.val + 1 + d := ⟨j.val - (i.val + 1), by have : i.val < j.val := hij; omega⟩
  induction d generalizing j with
  | zero => exact h i j hd
  | succ d ih =>
    have hj := j.isLt
    have h1 := ih ⟨i.val + 1 + d, by omega⟩ (by show i.val < i.val + 1 + d; omega) rfl
    exact (h ⟨i.val + 1 + d, by omega⟩ j (by show j.val = i.val + 1 + d + 1; omega)).trans h1

theorem pow_of_next (f : Fin K → ℝ) (c : ℝ) (P : Fin K → Prop) (h : ∀ i j : Fin K, P i → j.val = i.val + 1 → P j ∧ f j = f i * c)
    (i j : Fin K) (d : ℕ) (hi : P i) (hd : j.val = i.val + d) : P j ∧ f j = f i * c ^ d := by
  induction d generalizing j with
  | zero =>
    have : j = i := Fin.ext hd
    subst this
    exact ⟨hi, by simp⟩
  | succ d ih =>
    have hj := j.isLt
    obtain ⟨h1, h2⟩ := ih ⟨i.val + d, by omega⟩ rfl
    obtain ⟨h3, h4⟩ := h ⟨i.val + d, by omega⟩ j h1 hd
    exact ⟨h3, by rw [h4, h2, pow_succ, mul_assoc]⟩

/-- What is left over after some sticks. -/
theorem prod_leftOver (α eps : ℝ) (hα : 0 < α) (he : 0 ≤ eps) (t : ℕ → ℝ) (ht : ∀ m, 0 ≤ t m) (m : ℕ) :
    ∏ j ∈ range (m + 1), leftOver α eps t j ≤ (α + t (m + 1)) / (1 + α + t 0 + eps) := by
  induction m with
  | zero => simp [leftOver]
  | succ m ih =>
    rw [Finset.prod_range_succ]
    have h0 := ht 0
    have h1 := ht (m + 1)
    have h2 := ht (m + 1 + 1)
    have hD : 0 < 1 + α + t 0 + eps := by linarith
    have hE : 0 < 1 + α + t (m + 1) + eps := by linarith
    refine (mul_le_mul_of_nonneg_right ih (by unfold leftOver; positivity)).trans ?_
    unfold leftOver
    rw [div_mul_div_comm, div_le_div_iff₀ (by positivity) hD]
    have : (α + t (m + 1)) * (α + t (m + 1 + 1)) ≤ (1 + α + t (m + 1) + eps) * (α + t (m + 1 + 1)) :=
      mul_le_mul_of_nonneg_right (by linarith) (by linarith)
    nlinarith

/-- The weights from rank `R` on are taken from what the sticks before have left over. -/
theorem sum_from_rank [NeZero K] (σ : Equiv.Perm (Fin K)) (n : Fin K → ℝ) (hn : ∀ k, 0 ≤ n k) (α eps : ℝ) (hα : 0 < α) (he : 0 ≤ eps)
    (A : Finset (Fin K)) (R : ℕ) (hA : ∀ k ∈ A, R ≤ (σ.symm k).val) :
    ∑ k ∈ A, sbMean eps σ (fun k => (1 + n k, α + countAfter σ n k)) k ≤ ∏ j ∈ range R, leftOver α eps (tail σ n) j := by
  have ht := tail_nonneg σ n hn
  have hD : ∀ m, 0 < 1 + α + tail σ n m + eps := fun m => by have := ht m; linarith
  set Q : ℕ → ℝ := fun m => ∏ j ∈ range m, leftOver α eps (tail σ n) j with hQ
  have hL : ∀ j, 0 ≤ leftOver α eps (tail σ n) j := fun j => by
    have := ht (j + 1)
    have := hD j
    unfold leftOver
    positivity
  have hQ0 : ∀ m, 0 ≤ Q m := fun m => Finset.prod_nonneg fun j _ => hL j
  have hstep : ∀ i : Fin K, sbMean eps σ (fun k => (1 + n k, α + countAfter σ n k)) (σ i) ≤ Q i - Q (i + 1) := by
    intro i
    rw [stick_mean]
    have e : Q i - Q (i + 1) = (1 - leftOver α eps (tail σ n) i) * Q i := by
      simp only [hQ, Finset.prod_range_succ]
      ring
    rw [e]
    refine mul_le_mul_of_nonneg_right ?_ (hQ0 _)
    have h1 := tail_eq σ n i
    have h2 := tail_succ σ n i
    have h3 := hD i
    unfold leftOver
    rw [le_sub_iff_add_le, ← add_div, div_le_one h3]
    linarith
  have hanti : ∀ m, 0 ≤ Q m - Q (m + 1) ∨ K ≤ m := by
    intro m
    by_cases hm : K ≤ m
    · exact Or.inr hm
    · left
      refine le_trans ?_ (hstep ⟨m, by omega⟩)
      rw [stick_mean]
      have := hn (σ ⟨m, by omega⟩)
      have := hD m
      exact mul_nonneg (by positivity) (hQ0 _)
  calc ∑ k ∈ A, sbMean eps σ (fun k => (1 + n k, α + countAfter σ n k)) k
      ≤ ∑ k ∈ A, (fun m => Q m - Q (m + 1)) (σ.symm k).val := Finset.sum_le_sum fun k _ => by
        have := hstep (σ.symm k)
        rwa [Equiv.apply_symm_apply] at this
    _ = ∑ m ∈ A.image (fun k => (σ.symm k).val), (Q m - Q (m + 1)) := by
        rw [Finset.sum_image]
        intro a _ b _ h
        exact σ.symm.injective (Fin.ext h)
    _ ≤ ∑ m ∈ Finset.Ico R (max R K), (Q m - Q (m + 1)) := by
        refine Finset.sum_le_sum_of_subset_of_nonneg ?_ ?_
        · intro m hm
          obtain ⟨k, hk, rfl⟩ := Finset.mem_image.1 hm
          have h1 := hA k hk
          have h2 := (σ.symm k).isLt
          rw [Finset.mem_Ico]
          exact ⟨h1, lt_of_lt_of_le h2 (le_max_right _ _)⟩
        · intro m hm _
          have := Finset.mem_Ico.1 hm
          exact (hanti m).resolve_right (by omega)
    _ ≤ Q R := by
        have h := Finset.sum_Ico_sub Q (le_max_left R K)
        have e : ∑ m ∈ Finset.Ico R (max R K), (Q m - Q (m + 1)) = -∑ m ∈ Finset.Ico R (max R K), (Q (m + 1) - Q m) := by
          rw [← Finset.sum_neg_distrib]
          exact Finset.sum_congr rfl fun _ _ => by ring
        rw [e, h]
        have := hQ0 (max R K)
        linarith

/-- The weights used for inference are below the mean weights. -/
theorem exp_log_le_mean [NeZero K] (s : SBCat K) (hv : ∀ k, 0 < (s.post k).1 ∧ 0 < (s.post k).2) (k : Fin K) :
    Real.exp (s.logWeights k) ≤ sbMean 0 s.ordering s.post k := by
  rw [(C51_stick_weights s.ordering s.post hv).1]
  unfold SBCat.logWeights stickWeight
  rw [(C80_stick_log_weights s.ordering s.post hv).1,
    Finset.sum_eq_single k (fun j _ hj => by simp [hj]) (by simp), Pi.single_eq_same, one_mul, Real.exp_add, Real.exp_sum]
  refine mul_le_mul (exp_digamma_le (hv k).1 (hv k).2) (Finset.prod_le_prod (fun _ _ => (Real.exp_pos _).le) fun j _ => ?_)
    (Finset.prod_nonneg fun _ _ => (Real.exp_pos _).le) (div_nonneg (hv k).1.le (add_pos (hv k).1 (hv k).2).le)
  have := exp_digamma_le (hv j).2 (hv j).1
  rwa [add_comm (s.post j).2] at this

end Verif.VB
