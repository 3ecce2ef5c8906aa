import Verif.Props.DistsUpdate
import Mathlib.Tactic.Positivity

/-!
# C31 : posteriors stay valid during the whole training
-/

namespace Verif.Props

open Verif Verif.Dists Verif.DistSpec

variable {K : Type*} [Field K] [LinearOrder K] [IsStrictOrderedRing K]

/-! ## Spec: a training schedule -/

/-- A learning-rate schedule with its data: learning rates in `(0, 1]`, non-negative
responsibilities, observations of dimension `D`. -/
def ValidSchedule (D : ℕ) (steps : List (K × List (K × List K))) : Prop :=
  ∀ s ∈ steps, 0 < s.1 ∧ s.1 ≤ 1 ∧ DataDim D s.2 ∧ NonnegWeights s.2

/-- Induction over the training run. -/
theorem trainRun_invariant {P : Type*} (natural : P → List K) (fromNatural : List K → Except Err P)
    (prior : P) (Valid : P → Prop) (steps : List (K × List K))
    (hstep : ∀ post, Valid post → ∀ s ∈ steps,
      ∃ post', natGradUpdate natural fromNatural prior post s.2 s.1 = .ok post' ∧ Valid post')
    (post : P) (hv : Valid post) :
    ∃ post', trainRun natural fromNatural prior post steps = .ok post' ∧ Valid post' := by
  induction steps generalizing post with
  | nil => exact ⟨post, rfl, hv⟩
  | cons s steps ih =>
    obtain ⟨p1, e1, v1⟩ := hstep post hv s (by simp)
    obtain ⟨p2, e2, v2⟩ := ih (fun p hp s' hs' => hstep p hp s' (by simp [hs'])) p1 v1
    refine ⟨p2, ?_, v2⟩
    obtain ⟨l, st⟩ := s
    simp only [trainRun]
    simp only at e1
    rw [e1]
    exact e2

/-! ## Dirichlet -/

theorem C31_dirichlet_stays_valid (D : ℕ) (hD : 0 < D) (prior post : List K)
    (hp : DirValid D prior) (hq : DirValid D post) (steps : List (K × List (K × List K)))
    (hs : ValidSchedule D steps) (hx : ∀ s ∈ steps, ∀ d ∈ s.2, ∀ v ∈ d.2, 0 ≤ v) :
    ∃ post', trainRun dirNatural dirFromNatural prior post
      (steps.map fun s => (s.1, wsum D (s.2.map fun r => (r.1, catStats r.2)))) = .ok post' ∧
      DirValid D post' := by
  apply trainRun_invariant _ _ _ _ _ _ _ hq
  intro post hv s' hs'
  obtain ⟨s, hsm, rfl⟩ := List.mem_map.1 hs'
  obtain ⟨h0, h1, hd, hw⟩ := hs s hsm
  refine ⟨_, dir_update_eq D hD prior post s.2 s.1 hp.1 hv.1 hd, ?_, ?_⟩
  · simp [hp.1, hv.1, length_wsum D s.2 hd]
  · intro x hxm
    obtain ⟨i, hi, rfl⟩ := List.getElem_of_mem hxm
    have hi' : i < D := by simpa [hp.1, hv.1, length_wsum D s.2 hd] using hi
    have e := getD_wsum D s.2 hd i
    have hi2 : i < (wsum D s.2).length := by rw [length_wsum D s.2 hd]; exact hi'
    rw [List.getD_eq_getElem _ _ hi2] at e
    have hpos : 0 ≤ (wsum D s.2)[i] := by
      rw [e]
      apply List.sum_nonneg
      intro y hy
      obtain ⟨d, hdm, rfl⟩ := List.mem_map.1 hy
      apply mul_nonneg (hw d hdm)
      have hid : i < d.2.length := by rw [hd d hdm]; exact hi'
      rw [List.getD_eq_getElem _ _ hid]
      exact hx s hsm d hdm _ (List.getElem_mem _)
    have a1 : 0 < prior[i]'(by rw [hp.1]; exact hi') := hp.2 _ (List.getElem_mem _)
    have a2 : 0 < post[i]'(by rw [hv.1]; exact hi') := hv.2 _ (List.getElem_mem _)
    simp only [List.getElem_map, vadd, vsmul, List.getElem_zipWith]
    nlinarith [mul_pos h0 a1, mul_nonneg h0.le hpos, mul_nonneg (sub_nonneg.2 h1) a2.le]

example : ValidSchedule 2 ([(1/2, [(1, [0, 1])]), (1, [(3, [1/2, 1/2])])] :
    List (ℚ × List (ℚ × List ℚ))) ∧ DirValid 2 ([1/10, 3] : List ℚ) ∧
    trainRun dirNatural dirFromNatural ([1/10, 3] : List ℚ) [1/10, 3]
      ([(1/2, [(1, [0, 1])]), (1, [(3, [1/2, 1/2])])].map fun s =>
        (s.1, wsum 2 (s.2.map fun r => (r.1, catStats r.2)))) = .ok [8/5, 9/2] := by
  refine ⟨?_, ⟨rfl, ?_⟩, by decide +kernel⟩
  · intro s hs
    simp only [List.mem_cons, List.not_mem_nil, or_false] at hs
    rcases hs with rfl | rfl <;> refine ⟨by norm_num, by norm_num, ?_, ?_⟩ <;> intro d hd <;>
      simp at hd <;> subst hd <;> norm_num
  · intro x hx
    simp at hx
    rcases hx with rfl | rfl <;> norm_num

/-! ## Normal-Gamma -/

/-- One coordinate of a Normal-Gamma update keeps the rate positive. -/
theorem ng_rate_pos {k1 m1 b1 k0 m0 b0 R S Q l : K} (hl : 0 < l) (hl1 : l ≤ 1)
    (hk1 : 0 < k1) (hk0 : 0 < k0) (hb1 : 0 < b1) (hb0 : 0 < b0) (hR : 0 ≤ R) (hQ : 0 ≤ Q)
    (hS : S ^ 2 ≤ R * Q) :
    let k := (1 - l) * k1 + l * (k0 + R)
    let A := (1 - l) * (k1 * m1) + l * (k0 * m0 + S)
    0 < (1 - l) * ((1/2) * k1 * m1 ^ 2 + b1) + l * ((1/2) * k0 * m0 ^ 2 + b0 + (1/2) * Q) -
      (1/2) * k * (A / k) ^ 2 := by
  intro k A
  have h1l : 0 ≤ 1 - l := by linarith
  have hk : 0 < k := by
    have : 0 ≤ (1 - l) * k1 := by positivity
    have : 0 < l * (k0 + R) := by positivity
    simp only [k]; linarith
  have key : A ^ 2 ≤ k * ((1 - l) * (k1 * m1 ^ 2) + l * (k0 * m0 ^ 2 + Q)) := by
    have hin : (k0 * m0 + S) ^ 2 ≤ (k0 + R) * (k0 * m0 ^ 2 + Q) :=
      quad_over_lin hk0.le hR (by positivity) hQ (le_of_eq (by ring)) hS
    apply quad_over_lin
    · positivity
    · positivity
    · positivity
    · positivity
    · exact le_of_eq (by ring)
    · calc (l * (k0 * m0 + S)) ^ 2 = l ^ 2 * (k0 * m0 + S) ^ 2 := by ring
        _ ≤ l ^ 2 * ((k0 + R) * (k0 * m0 ^ 2 + Q)) := by gcongr
        _ = _ := by ring
  have h3 : (1/2) * k * (A / k) ^ 2 = (1/2) * (A ^ 2 / k) := by field_simp
  have h4 : A ^ 2 / k ≤ (1 - l) * (k1 * m1 ^ 2) + l * (k0 * m0 ^ 2 + Q) := by
    rw [div_le_iff₀ hk]; linarith
  rw [h3]
  have h5 : 0 ≤ (1 - l) * b1 := by positivity
  have h6 : 0 < l * b0 := by positivity
  nlinarith

/-- `S² ≤ R Q` for the statistics of one coordinate. -/
theorem stats_cauchy (data : List (K × List K)) (hw : NonnegWeights data) (i : ℕ) :
    first data i ^ 2 ≤ count data * second data i ∧ 0 ≤ count data ∧ 0 ≤ second data i := by
  have := weighted_sq_le (data.map fun d => (d.1, d.2.getD i 0)) (by
    intro d hd
    obtain ⟨d', hd', rfl⟩ := List.mem_map.1 hd
    exact hw d' hd')
  simpa [first, count, second, List.map_map, Function.comp_def] using this

theorem C31_normalgamma_stays_valid (D : ℕ) (prior post : NG K) (hp : NGValid D prior)
    (hq : NGValid D post) (steps : List (K × List (K × List K))) (hs : ValidSchedule D steps) :
    ∃ post', trainRun ngNatural ngFromNatural prior post
      (steps.map fun s => (s.1, wsum (2 * D + 2) (s.2.map fun r => (r.1, ngStats r.2)))) =
        .ok post' ∧ NGValid D post' := by
  apply trainRun_invariant _ _ _ _ _ _ _ hq
  intro post hv s' hs'
  obtain ⟨s, hsm, rfl⟩ := List.mem_map.1 hs'
  obtain ⟨h0, h1, hd, hw⟩ := hs s hsm
  obtain ⟨p1, p2, pk, pa, pb⟩ := hp
  obtain ⟨v1, v2, vk, va, vb⟩ := hv
  obtain ⟨S1, S2, l1, l2, g1, g2, e⟩ := wsum_ngStats_blocks D s.2 hd
  have hR : 0 ≤ count s.2 := (stats_cauchy s.2 hw 0).2.1
  have h1l : 0 ≤ 1 - s.1 := by linarith
  set k := (1 - s.1) * post.scale + s.1 * (prior.scale + count s.2) with hk
  have hkpos : 0 < k := by
    have : 0 ≤ (1 - s.1) * post.scale := by positivity
    have : 0 < s.1 * (prior.scale + count s.2) := by positivity
    linarith
  have hs2 : -2 * ((1 - s.1) * (-(1/2) * post.scale) +
      s.1 * (-(1/2) * prior.scale + -(1/2) * count s.2)) = k := by rw [hk]; ring
  refine ⟨_, by
    unfold natGradUpdate
    simp only
    rw [natGrad_combination _ _ _ _
      (by rw [length_ngNatural _ (by omega), length_ngNatural _ (by omega), p1, v1])
      (by rw [e, length_ngNatural _ (by omega)]; simp [l1, l2, v1]; omega), e, ngNatural,
      ngNatural, vadd_blocks4 _ _ _ _ _ _ _ _ (by simp [l1, p1]) (by simp [l2, p1, p2]),
      vsmul_blocks4, vsmul_blocks4,
      vadd_blocks4 _ _ _ _ _ _ _ _ (by simp [l1, p1, v1]) (by simp [l2, p1, p2, v1, v2]),
      ngFromNatural_blocks _ _ _ _ (by simp [l1, l2, p1, p2, v1, v2])], ?_⟩
  refine ⟨by simp [l1, p1, v1], by simp [l1, l2, p1, p2, v1, v2], ?_, ?_, ?_⟩
  · show 0 < -2 * _
    rw [hs2]; exact hkpos
  · show 0 < _ + 1 / 2
    have : (0:K) < (1 - s.1) * post.shape + s.1 * (prior.shape + (1/2) * count s.2) := by
      have : 0 ≤ (1 - s.1) * post.shape := by positivity
      have : 0 < s.1 * (prior.shape + (1/2) * count s.2) := by positivity
      linarith
    nlinarith
  · simp only [hs2]
    intro x hx
    obtain ⟨i, hi, rfl⟩ := List.getElem_of_mem hx
    have hi' : i < D := by simpa [l1, l2, p1, p2, v1, v2] using hi
    rw [← List.getD_eq_getElem _ 0 hi]
    have c1 := getD_vsmul post.scale post.mean i
    have c2 := getD_vsmul prior.scale prior.mean i
    simp only [vsmul] at c1 c2
    rw [getD_zipWith' _ _ _ _ (by simpa [l2, p1, p2, v1, v2] using hi')
        (by simpa [l1, p1, v1] using hi'),
      getD_map_div, getD_vadd _ _ (by simp [l2, p1, p2, v1, v2]), getD_vsmul, getD_vsmul,
      getD_vadd _ _ (by simp [l2, p1, p2]), getD_vadd _ _ (by simp [l1, p1, v1]),
      getD_vsmul, getD_vsmul, getD_vadd _ _ (by simp [l1, p1]), c1, c2, g1, g2,
      getD_zipWith' _ _ _ _ (by omega) (by omega), getD_zipWith' _ _ _ _ (by omega) (by omega)]
    have hb1 : 0 < post.rates.getD i 0 := by
      rw [List.getD_eq_getElem _ _ (by omega)]; exact vb _ (List.getElem_mem _)
    have hb0 : 0 < prior.rates.getD i 0 := by
      rw [List.getD_eq_getElem _ _ (by omega)]; exact pb _ (List.getElem_mem _)
    obtain ⟨q1, q2, q3⟩ := stats_cauchy s.2 hw i
    have := ng_rate_pos (m1 := post.mean.getD i 0) (m0 := prior.mean.getD i 0) h0 h1 vk pk hb1 hb0
      q2 q3 q1
    refine lt_of_lt_of_eq this ?_
    rw [hk]
    ring

example : NGValid 2 (⟨[1, 0], 1, 2, [3, 1]⟩ : NG ℚ) ∧
    trainRun ngNatural ngFromNatural (⟨[1, 0], 1, 2, [3, 1]⟩ : NG ℚ) ⟨[1, 0], 1, 2, [3, 1]⟩
      ([(1/2, [(1, [4, 0])]), (1, [(1/2, [1, 2])])].map fun s =>
        (s.1, wsum 6 (s.2.map fun r => (r.1, ngStats r.2)))) =
      .ok ⟨[1, 2/3], 3/2, 9/4, [3, 5/3]⟩ := by
  refine ⟨⟨rfl, rfl, by norm_num, by norm_num, ?_⟩, by decide +kernel⟩
  intro x hx
  simp at hx
  rcases hx with rfl | rfl <;> norm_num

/-! ## Isotropic Normal-Gamma -/

/-- Cauchy–Schwarz summed over coordinates: if `A_i² ≤ k q_i` for every coordinate then
`Σ A_i² ≤ k Σ q_i`. -/
theorem sum_sq_le_of_forall (n : ℕ) (A q : ℕ → K) (k : K) (h : ∀ i < n, A i ^ 2 ≤ k * q i) :
    ((List.range n).map fun i => A i ^ 2).sum ≤ k * ((List.range n).map q).sum := by
  induction n with
  | zero => simp
  | succ n ih =>
    simp only [List.range_succ, List.map_append, List.sum_append, List.map_cons, List.map_nil,
      List.sum_cons, List.sum_nil, add_zero, mul_add]
    exact add_le_add (ih fun i hi => h i (by omega)) (h n (by omega))

theorem map_eq_range_map {α β : Type*} (l : List α) (d : α) (g : α → β) :
    l.map g = (List.range l.length).map fun i => g (l.getD i d) := by
  apply List.ext_getElem (by simp)
  intro i h1 h2
  simp at h1
  simp [List.getD_eq_getElem?_getD, h1]

theorem isoSecond_eq (D : ℕ) (data : List (K × List K)) (hd : DataDim D data) :
    isoSecond data = ((List.range D).map fun i => second data i).sum := by
  induction data with
  | nil => simp [isoSecond, second]
  | cons x data ih =>
    have hx : x.2.length = D := hd x (by simp)
    have hd' : DataDim D data := fun d h => hd d (by simp [h])
    have ih' := ih hd'
    simp only [isoSecond, second, List.map_cons, List.sum_cons] at ih' ⊢
    rw [List.sum_map_add, ← ih', map_eq_range_map x.2 0 (· ^ 2), hx, List.sum_map_mul_left]

theorem C31_isonormalgamma_stays_valid (D : ℕ) (prior post : ING K) (hp : INGValid D prior)
    (hq : INGValid D post) (steps : List (K × List (K × List K))) (hs : ValidSchedule D steps) :
    ∃ post', trainRun ingNatural ingFromNatural prior post
      (steps.map fun s => (s.1, wsum (D + 3) (s.2.map fun r => (r.1, ingStats r.2)))) =
        .ok post' ∧ INGValid D post' := by
  apply trainRun_invariant _ _ _ _ _ _ _ hq
  intro post hv s' hs'
  obtain ⟨s, hsm, rfl⟩ := List.mem_map.1 hs'
  obtain ⟨h0, h1, hd, hw⟩ := hs s hsm
  obtain ⟨p1, pk, pa, pb⟩ := hp
  obtain ⟨v1, vk, va, vb⟩ := hv
  have hR : 0 ≤ count s.2 := (stats_cauchy s.2 hw 0).2.1
  have hwl := length_wsum D s.2 hd
  have h1l : 0 ≤ 1 - s.1 := by linarith
  set k := (1 - s.1) * post.scale + s.1 * (prior.scale + count s.2) with hk
  have hkpos : 0 < k := by
    have : 0 ≤ (1 - s.1) * post.scale := by positivity
    have : 0 < s.1 * (prior.scale + count s.2) := by positivity
    linarith
  have hs2 : -2 * ((1 - s.1) * (-(1/2) * post.scale) +
      s.1 * (-(1/2) * prior.scale + -(1/2) * (s.2.map (·.1)).sum)) = k := by
    rw [hk]; simp only [count]; ring
  refine ⟨_, by
    unfold natGradUpdate
    simp only
    rw [wsum_ingStats D s.2 hd, natGrad_combination _ _ _ _
      (by rw [length_ingNatural, length_ingNatural, p1, v1])
      (by rw [length_ingNatural]; simp [hwl, v1]), ingNatural,
      ingNatural, vadd_blocks3 _ _ _ _ _ _ _ _ (by simp [hwl, p1]),
      vsmul_blocks3, vsmul_blocks3,
      vadd_blocks3 _ _ _ _ _ _ _ _ (by simp [hwl, p1, v1]), ingFromNatural_blocks], ?_⟩
  refine ⟨by simp [hwl, p1, v1], ?_, ?_, ?_⟩
  · show 0 < -2 * _
    rw [hs2]; exact hkpos
  · simp only [length_vadd, length_vsmul, List.length_map, hwl, p1, v1, min_self]
    have : (0:K) < (1 - s.1) * post.shape +
        s.1 * (prior.shape + (1/2) * (D:K) * count s.2) := by
      have : 0 ≤ (1 - s.1) * post.shape := by positivity
      have : 0 < s.1 * (prior.shape + (1/2) * (D:K) * count s.2) := by positivity
      linarith
    refine lt_of_lt_of_eq this ?_
    simp only [count]
    ring
  · simp only [hs2]
    set A : ℕ → K := fun i => (1 - s.1) * (post.scale * post.mean.getD i 0) +
      s.1 * (prior.scale * prior.mean.getD i 0 + first s.2 i) with hA
    set q : ℕ → K := fun i => (1 - s.1) * (post.scale * post.mean.getD i 0 ^ 2) +
      s.1 * (prior.scale * prior.mean.getD i 0 ^ 2 + second s.2 i) with hq
    have key : ∀ i < D, A i ^ 2 ≤ k * q i := by
      intro i _
      obtain ⟨q1, q2, q3⟩ := stats_cauchy s.2 hw i
      have hin := quad_over_lin (a := prior.scale * prior.mean.getD i 0) (b := first s.2 i)
        (q := prior.scale * prior.mean.getD i 0 ^ 2) pk.le q2 (by positivity) q3
        (le_of_eq (by ring)) q1
      apply quad_over_lin
      · positivity
      · positivity
      · positivity
      · positivity
      · exact le_of_eq (by ring)
      · calc (s.1 * (prior.scale * prior.mean.getD i 0 + first s.2 i)) ^ 2
            = s.1 ^ 2 * (prior.scale * prior.mean.getD i 0 + first s.2 i) ^ 2 := by ring
          _ ≤ s.1 ^ 2 * ((prior.scale + count s.2) *
              (prior.scale * prior.mean.getD i 0 ^ 2 + second s.2 i)) := by gcongr
          _ = _ := by ring
    have hsum := sum_sq_le_of_forall D A q k key
    have hmean : (List.map (fun m => m * m) (List.map (fun x => x / k)
        (vadd (vsmul (1 - s.1) (List.map (fun x => post.scale * x) post.mean))
          (vsmul s.1 (vadd (List.map (fun x => prior.scale * x) prior.mean) (wsum D s.2)))))) =
        (List.range D).map fun i => A i ^ 2 * (1 / k ^ 2) := by
      apply ext_getD
      · simp [hwl, p1, v1]
      · intro i hi
        have hi' : i < D := by simpa [hwl, p1, v1] using hi
        have c1 := getD_vsmul post.scale post.mean i
        have c2 := getD_vsmul prior.scale prior.mean i
        simp only [vsmul] at c1 c2
        have hmm : ∀ l : List K, (l.map fun m => m * m).getD i 0 = l.getD i 0 * l.getD i 0 := by
          intro l
          rcases Nat.lt_or_ge i l.length with hi | hi <;> simp [List.getD_eq_getElem?_getD, hi]
        rw [hmm, getD_map_div, getD_vadd _ _ (by simp [hwl, p1, v1]), getD_vsmul, getD_vsmul,
          getD_vadd _ _ (by simp [hwl, p1]), c1, c2, getD_wsum D s.2 hd, getD_range_map _ _ _ hi']
        simp only [hA, first]
        field_simp
    rw [hmean, List.sum_map_mul_right]
    have hqsum : ((List.range D).map q).sum =
        (1 - s.1) * (post.scale * (post.mean.map (· ^ 2)).sum) +
        s.1 * (prior.scale * (prior.mean.map (· ^ 2)).sum +
          (s.2.map fun r => r.1 * (r.2.map (· ^ 2)).sum).sum) := by
      have e1 := isoSecond_eq D s.2 hd
      simp only [isoSecond] at e1
      rw [e1, map_eq_range_map post.mean 0 (· ^ 2), map_eq_range_map prior.mean 0 (· ^ 2), p1, v1,
        hq]
      rw [List.sum_map_add, List.sum_map_mul_left, List.sum_map_mul_left, List.sum_map_mul_left,
        List.sum_map_add, List.sum_map_mul_left]
    have h5 : (1/2 : K) * k * (((List.range D).map fun i => A i ^ 2).sum * (1 / k ^ 2)) =
        (1/2) * (((List.range D).map fun i => A i ^ 2).sum / k) := by field_simp
    rw [h5]
    have h6 : ((List.range D).map fun i => A i ^ 2).sum / k ≤ ((List.range D).map q).sum := by
      rw [div_le_iff₀ hkpos]; linarith
    rw [hqsum] at h6
    have h7 : 0 ≤ (1 - s.1) * post.rate := by positivity
    have h8 : 0 < s.1 * prior.rate := by positivity
    nlinarith

example : INGValid 2 (⟨[1, 0], 1, 2, 3⟩ : ING ℚ) ∧
    trainRun ingNatural ingFromNatural (⟨[1, 0], 1, 2, 3⟩ : ING ℚ) ⟨[1, 0], 1, 2, 3⟩
      ([(1/2, [(1, [4, 0])]), (1, [(1/2, [1, 2])])].map fun s =>
        (s.1, wsum 5 (s.2.map fun r => (r.1, ingStats r.2)))) =
      .ok ⟨[1, 2/3], 3/2, 5/2, 11/3⟩ := by
  refine ⟨⟨rfl, by norm_num, by norm_num, by norm_num⟩, by decide +kernel⟩

/-! ## Gamma -/

theorem length_gamNatural (p : GammaP K) :
    (gamNatural p).length = p.rate.length + p.shape.length := by simp [gamNatural]

theorem gamFromNatural_blocks (A B : List K) (h : A.length = B.length) :
    gamFromNatural (A ++ B) = .ok { shape := B.map (· + 1), rate := A.map (- ·) } := by
  have hd : (A ++ B).length / 2 = A.length := by simp [h]; omega
  simp only [gamFromNatural, hd, List.take_left, List.drop_left]

/-- The update of a Gamma with statistics `s1 ++ s2`. -/
theorem gam_update_eq (D : ℕ) (prior post : GammaP K) (s1 s2 : List K) (l : K)
    (h1 : prior.shape.length = D) (h2 : prior.rate.length = D) (h3 : post.shape.length = D)
    (h4 : post.rate.length = D) (h5 : s1.length = D) (h6 : s2.length = D) :
    ∃ p, natGradUpdate gamNatural gamFromNatural prior post (s1 ++ s2) l = .ok p ∧
      p.shape.length = D ∧ p.rate.length = D ∧
      (∀ i < D, p.shape.getD i 0 =
        (1 - l) * post.shape.getD i 0 + l * (prior.shape.getD i 0 + s2.getD i 0)) ∧
      (∀ i < D, p.rate.getD i 0 =
        (1 - l) * post.rate.getD i 0 + l * (prior.rate.getD i 0 - s1.getD i 0)) := by
  refine ⟨_, by
    unfold natGradUpdate
    rw [natGrad_combination _ _ _ _ (by simp [length_gamNatural, h1, h2, h3, h4])
      (by simp [length_gamNatural, h3, h4, h5, h6]), gamNatural, gamNatural,
      vadd_append _ _ _ _ (by simp [h2, h5]), vsmul_append, vsmul_append,
      vadd_append _ _ _ _ (by simp [h2, h4, h5]),
      gamFromNatural_blocks _ _ (by simp [h1, h2, h3, h4, h5, h6])], ?_, ?_, ?_, ?_⟩
  · simp [h1, h3, h6]
  · simp [h2, h4, h5]
  · intro i hi
    simp [List.getD_eq_getElem?_getD, vadd, vsmul, h1, h3, h6, hi]
    ring
  · intro i hi
    simp [List.getD_eq_getElem?_getD, vadd, vsmul, h2, h4, h5, hi]
    ring

/-- Gamma posteriors stay valid when the statistics added to `-rate` are non-positive and those
added to the shape non-negative: the case of the stick-breaking concentration
(`models/categorical.py` 203-209, statistics `(E[ln(1-v)], 1)` summed). -/
theorem C31_gamma_stays_valid (D : ℕ) (prior post : GammaP K) (hp : GamValid D prior)
    (hq : GamValid D post) (steps : List (K × (List K × List K)))
    (hs : ∀ s ∈ steps, 0 < s.1 ∧ s.1 ≤ 1 ∧ s.2.1.length = D ∧ s.2.2.length = D ∧
      (∀ x ∈ s.2.1, x ≤ 0) ∧ ∀ x ∈ s.2.2, 0 ≤ x) :
    ∃ post', trainRun gamNatural gamFromNatural prior post
      (steps.map fun s => (s.1, s.2.1 ++ s.2.2)) = .ok post' ∧ GamValid D post' := by
  apply trainRun_invariant _ _ _ _ _ _ _ hq
  intro post hv s' hs'
  obtain ⟨s, hsm, rfl⟩ := List.mem_map.1 hs'
  obtain ⟨h0, h1, hl1, hl2, hn, hpo⟩ := hs s hsm
  obtain ⟨p1, p2, pa, pb⟩ := hp
  obtain ⟨v1, v2, va, vb⟩ := hv
  obtain ⟨p, e, e1, e2, e3, e4⟩ :=
    gam_update_eq D prior post s.2.1 s.2.2 s.1 p1 p2 v1 v2 hl1 hl2
  have h1l : 0 ≤ 1 - s.1 := by linarith
  refine ⟨p, e, e1, e2, ?_, ?_⟩
  · intro x hx
    obtain ⟨i, hi, rfl⟩ := List.getElem_of_mem hx
    rw [← List.getD_eq_getElem _ 0 hi, e3 i (by omega), List.getD_eq_getElem _ _ (by omega),
      List.getD_eq_getElem _ _ (by omega), List.getD_eq_getElem _ _ (by omega)]
    have b1 := va (post.shape[i]'(by omega)) (List.getElem_mem _)
    have b2 := pa (prior.shape[i]'(by omega)) (List.getElem_mem _)
    have b3 := hpo (s.2.2[i]'(by omega)) (List.getElem_mem _)
    have : 0 ≤ (1 - s.1) * post.shape[i]'(by omega) := by positivity
    have : 0 < s.1 * (prior.shape[i]'(by omega) + s.2.2[i]'(by omega)) := by positivity
    linarith
  · intro x hx
    obtain ⟨i, hi, rfl⟩ := List.getElem_of_mem hx
    rw [← List.getD_eq_getElem _ 0 hi, e4 i (by omega), List.getD_eq_getElem _ _ (by omega),
      List.getD_eq_getElem _ _ (by omega), List.getD_eq_getElem _ _ (by omega)]
    have b1 := vb (post.rate[i]'(by omega)) (List.getElem_mem _)
    have b2 := pb (prior.rate[i]'(by omega)) (List.getElem_mem _)
    have b3 := hn (s.2.1[i]'(by omega)) (List.getElem_mem _)
    have : 0 ≤ (1 - s.1) * post.rate[i]'(by omega) := by positivity
    have : 0 < s.1 * (prior.rate[i]'(by omega) - s.2.1[i]'(by omega)) :=
      mul_pos h0 (by linarith)
    linarith

example : GamValid 1 (⟨[1], [1]⟩ : GammaP ℚ) ∧
    trainRun gamNatural gamFromNatural (⟨[1], [1]⟩ : GammaP ℚ) ⟨[1], [1]⟩
      ([((1:ℚ), (([-3] : List ℚ), ([5] : List ℚ)))].map fun s => (s.1, s.2.1 ++ s.2.2)) =
      .ok ⟨[6], [4]⟩ := by
  refine ⟨⟨rfl, rfl, by simp, by simp⟩, by decide +kernel⟩

/-- The Gamma *model* (`models/gamma.py`) violates C31: `accumulate` negates the already negated
data, so one update *subtracts* the observation from the rate instead of adding it. -/
theorem C31_gamma_model_actual_rate (D : ℕ) (prior post : GammaP K) (shape x logx : List K)
    (h1 : prior.shape.length = D) (h2 : prior.rate.length = D) (h3 : post.shape.length = D)
    (h4 : post.rate.length = D) (hs : shape.length = D) (hx : x.length = D)
    (hlx : logx.length = D) :
    ∃ p, natGradUpdate gamNatural gamFromNatural prior post (gamModelStats shape x logx) 1 = .ok p ∧
      (∀ i < D, p.rate.getD i 0 = prior.rate.getD i 0 - x.getD i 0) ∧
      ∀ i < D, p.shape.getD i 0 = prior.shape.getD i 0 + shape.getD i 0 := by
  have e : gamModelStats shape x logx = x ++ shape := by
    have hd : (x.map (- ·) ++ logx ++ [(1:K)]).length / 2 = (x.map (- ·)).length := by
      simp [hx, hlx]; omega
    unfold gamModelStats
    simp only [hd]
    rw [List.append_assoc, List.take_left]
    congr 1
    · simp [Function.comp_def]
    · apply List.ext_getElem
      · simp [hs, hx]
      · intro i h1 h2
        simp
  obtain ⟨p, e0, _, _, e3, e4⟩ := gam_update_eq D prior post x shape 1 h1 h2 h3 h4 hx hs
  refine ⟨p, by rw [e]; exact e0, ?_, ?_⟩
  · intro i hi; rw [e4 i hi]; ring
  · intro i hi; rw [e3 i hi]; ring

/-- C31 is false for the Gamma model: prior `Gamma(1, 1)`, known shape `1`, a single observation
`x = 2` (with any value for `ln x`) give the posterior rate `-1`. -/
theorem C31_gamma_model_negation (logx : ℚ) :
    GamValid 1 (⟨[1], [1]⟩ : GammaP ℚ) ∧
    natGradUpdate gamNatural gamFromNatural (⟨[1], [1]⟩ : GammaP ℚ) ⟨[1], [1]⟩
      (gamModelStats [1] [2] [logx]) 1 = .ok ⟨[2], [-1]⟩ ∧
    ¬ GamValid 1 (⟨[2], [-1]⟩ : GammaP ℚ) := by
  refine ⟨⟨rfl, rfl, by simp, by simp⟩, ?_, ?_⟩
  · simp [natGradUpdate, gamNatural, gamModelStats, vadd, vsub, vsmul, gamFromNatural]
    norm_num
  · rintro ⟨_, _, _, h⟩
    have := h (-1) (by simp)
    norm_num at this

end Verif.Props
