import Mathlib.Algebra.Order.Ring.Rat
import Mathlib.Algebra.Ring.CharZero
import Verif.Lemmas.Dists
import Verif.Spec.Dists

/-!
# C31, C33, C35, C36 : conjugate updates
-/

namespace Verif.Props

open Verif Verif.Dists Verif.DistSpec

variable {K : Type*} [Field K]

/-! ## C33 : Dirichlet updates add counts -/

/-- The update of a Dirichlet posterior with any learning rate, coordinate by coordinate. -/
theorem dir_update_eq (D : ℕ) (hD : 0 < D) (prior post : List K) (data : List (K × List K)) (l : K)
    (h1 : prior.length = D) (h2 : post.length = D) (hd : DataDim D data) :
    natGradUpdate dirNatural dirFromNatural prior post
      (wsum D (data.map fun r => (r.1, catStats r.2))) l =
      .ok ((vadd (vsmul (1 - l) (post.map (· - 1)))
        (vsmul l (vadd (prior.map (· - 1)) (wsum D data)))).map (· + 1)) := by
  have hw : (wsum D data).length = D := length_wsum D data hd
  have hne : ∀ a : List K, a.length = D → a ≠ [] := by
    rintro a ha rfl; simp at ha; omega
  unfold natGradUpdate
  rw [wsum_catStats D hD data hd, dirNatural_eq_catStats, dirNatural_eq_catStats,
    natGrad_combination _ _ _ _
      (by rw [length_catStats _ (hne _ (by simpa using h1)),
        length_catStats _ (hne _ (by simpa using h2))]; simp [h1, h2])
      (by rw [length_catStats _ (hne _ hw),
        length_catStats _ (hne _ (by simpa using h2))]; simp [h2, hw]),
    ← catStats_vsmul, ← catStats_vadd _ _ (by simp [h1, hw]), ← catStats_vsmul,
    ← catStats_vadd _ _ (by simp [h1, h2, hw]),
    dirFromNatural_catStats _ (hne _ (by simp [h1, h2, hw]))]

theorem C33_dirichlet_update_adds_counts (D : ℕ) (hD : 0 < D) (prior post : List K)
    (data : List (K × List K)) (h1 : prior.length = D) (h2 : post.length = D)
    (hd : DataDim D data) :
    natGradUpdate dirNatural dirFromNatural prior post
      (wsum D (data.map fun r => (r.1, catStats r.2))) 1 =
      .ok ((List.range D).map fun i => prior.getD i 0 + first data i) := by
  have hw : (wsum D data).length = D := length_wsum D data hd
  rw [dir_update_eq D hD prior post data 1 h1 h2 hd]
  congr 1
  apply List.ext_getElem (by simp [h1, h2, hw])
  intro i h3 h4
  simp [h1, h2, hw] at h3
  have e := getD_wsum D data hd i
  have hi : i < (wsum D data).length := by omega
  rw [List.getD_eq_getElem?_getD, List.getElem?_eq_getElem hi] at e
  simp only [Option.getD_some] at e
  simp [vadd, vsmul, first, e, h1, h3]
  ring

/-- The order of the observations does not matter. -/
theorem C33_dirichlet_update_order (D : ℕ) (prior post : List K)
    (data data' : List (K × List K)) (h : data.Perm data') (l : K) :
    natGradUpdate dirNatural dirFromNatural prior post
      (wsum D (data.map fun r => (r.1, catStats r.2))) l =
    natGradUpdate dirNatural dirFromNatural prior post
      (wsum D (data'.map fun r => (r.1, catStats r.2))) l := by
  rw [wsum_perm D (h.map _)]

-- two one-hot observations and a soft one of weight 3
example : natGradUpdate dirNatural dirFromNatural ([1, 2, 3] : List ℚ) [7, 7, 7]
    (wsum 3 ([(1, [0, 1, 0]), (1, [1, 0, 0]), (3, [1/3, 0, 2/3])].map
      fun r => (r.1, catStats r.2))) 1 = .ok [3, 3, 5] := by decide +kernel

/-! ## C35 : Normal-Gamma conjugate update -/

theorem wsum_ngStats_blocks (D : ℕ) (data : List (K × List K)) (hd : DataDim D data) :
    ∃ S1 S2 : List K, S1.length = D ∧ S2.length = D ∧ (∀ i, S1.getD i 0 = first data i) ∧
      (∀ i, S2.getD i 0 = -(1/2) * second data i) ∧
      wsum (2 * D + 2) (data.map fun r => (r.1, ngStats r.2)) =
        S1 ++ S2 ++ [-(1/2) * count data, (1/2) * count data] := by
  have hsq : ∀ r ∈ (data.map fun r => (r.1, r.2.map fun v => -(1/2) * v ^ 2)),
      r.2.length = D := by
    intro r hr
    obtain ⟨r', hr', rfl⟩ := List.mem_map.1 hr
    simpa using hd r' hr'
  refine ⟨_, _, length_wsum D data hd, length_wsum D _ hsq, getD_wsum D data hd, ?_,
    wsum_ngStats D data hd⟩
  intro i
  rw [getD_wsum D _ hsq, List.map_map, second, ← List.sum_map_mul_left]
  congr 1
  apply List.map_congr_left
  intro d _
  have : (List.map (fun v : K => -(1/2) * v ^ 2) d.2).getD i 0 =
      -(1/2) * (d.2.getD i 0) ^ 2 := by
    rcases Nat.lt_or_ge i d.2.length with hi | hi <;>
      simp [List.getD_eq_getElem?_getD, hi]
  simp only [Function.comp, this]
  ring

theorem getD_map_div (a : List K) (k : K) (i : ℕ) :
    (a.map (· / k)).getD i 0 = a.getD i 0 / k := by
  rcases Nat.lt_or_ge i a.length with hi | hi <;> simp [List.getD_eq_getElem?_getD, hi]

theorem getD_range_map (D : ℕ) (g : ℕ → K) (i : ℕ) (hi : i < D) :
    ((List.range D).map g).getD i 0 = g i := by
  simp [List.getD_eq_getElem?_getD, hi]

theorem getD_zipWith' (g : K → K → K) (a b : List K) (i : ℕ) (ha : i < a.length)
    (hb : i < b.length) : (List.zipWith g a b).getD i 0 = g (a.getD i 0) (b.getD i 0) := by
  simp [List.getD_eq_getElem?_getD, ha, hb]

theorem C35_normalgamma_textbook_update [CharZero K] (D : ℕ) (prior post : NG K)
    (data : List (K × List K))
    (h1 : prior.mean.length = D) (h2 : prior.rates.length = D)
    (h3 : post.mean.length = D) (h4 : post.rates.length = D)
    (hd : DataDim D data) (_hk : prior.scale + count data ≠ 0) :
    let k := prior.scale + count data
    let m := fun i => (prior.scale * prior.mean.getD i 0 + first data i) / k
    natGradUpdate ngNatural ngFromNatural prior post
      (wsum (2 * D + 2) (data.map fun r => (r.1, ngStats r.2))) 1 =
    .ok { scale := k
          mean := (List.range D).map m
          shape := prior.shape + count data / 2
          rates := (List.range D).map fun i => prior.rates.getD i 0 +
            (second data i + prior.scale * prior.mean.getD i 0 ^ 2 - k * m i ^ 2) / 2 } := by
  intro k m
  have hsl : (wsum (2 * D + 2) (data.map fun r => (r.1, ngStats r.2))).length = 2 * D + 2 := by
    apply length_wsum
    intro r hr
    obtain ⟨r', hr', rfl⟩ := List.mem_map.1 hr
    have := hd r' hr'
    simp [ngStats, this]; omega
  have h2' : (2 : K) ≠ 0 := two_ne_zero
  obtain ⟨S1, S2, l1, l2, g1, g2, e⟩ := wsum_ngStats_blocks D data hd
  unfold natGradUpdate
  rw [natGrad_one _ _ _
    (by rw [length_ngNatural _ (by omega), length_ngNatural _ (by omega), h1, h3])
    (by rw [length_ngNatural _ (by omega), hsl, h3]), e, ngNatural,
    vadd_blocks4 _ _ _ _ _ _ _ _ (by simp [l1, h1]) (by simp [l2, h1, h2]),
    ngFromNatural_blocks _ _ _ _ (by simp [l1, l2, h1, h2])]
  have hs : -2 * (-(1/2) * prior.scale + -(1/2) * count data) = k := by
    simp only [k]; field_simp; ring
  simp only [hs]
  have hmean : List.map (fun x => x / k)
      (vadd (List.map (fun x => prior.scale * x) prior.mean) S1) = (List.range D).map m := by
    apply ext_getD
    · simp [l1, h1]
    · intro i hi
      have hi' : i < D := by simpa [l1, h1] using hi
      have := getD_vsmul prior.scale prior.mean i
      simp only [vsmul] at this
      rw [getD_map_div, getD_vadd _ _ (by simp [l1, h1]), this, g1, getD_range_map _ _ _ hi']
  rw [hmean]
  simp only [Except.ok.injEq, NG.mk.injEq, true_and]
  refine ⟨by ring, ?_⟩
  apply ext_getD
  · simp [l2, h1, h2]
  · intro i hi
    have hi' : i < D := by simpa [l2, h1, h2] using hi
    rw [getD_zipWith' _ _ _ _ (by simpa [l2, h1, h2] using hi') (by simpa using hi'),
      getD_vadd _ _ (by simp [l2, h1, h2]), g2, getD_range_map _ _ _ hi',
      getD_range_map _ _ _ hi', getD_zipWith' _ _ _ _ (by omega) (by omega)]
    ring

theorem C35_normalgamma_update_order (D : ℕ) (prior post : NG K)
    (data data' : List (K × List K)) (h : data.Perm data') (l : K) :
    natGradUpdate ngNatural ngFromNatural prior post
      (wsum (2 * D + 2) (data.map fun r => (r.1, ngStats r.2))) l =
    natGradUpdate ngNatural ngFromNatural prior post
      (wsum (2 * D + 2) (data'.map fun r => (r.1, ngStats r.2))) l := by
  rw [wsum_perm _ (h.map _)]

example : natGradUpdate ngNatural ngFromNatural (⟨[1, 0], 1, 2, [3, 1]⟩ : NG ℚ)
    ⟨[9, 9], 9, 9, [9, 9]⟩
    (wsum 6 ([(1, [4, 0]), (1/2, [1, 2])].map fun r => (r.1, ngStats r.2))) 1 =
    .ok ⟨[11/5, 2/5], 5/2, 11/4, [57/10, 9/5]⟩ := by decide +kernel

/-! ## C36 : isotropic Normal-Gamma conjugate update -/

theorem length_ingNatural (p : ING K) : (ingNatural p).length = p.mean.length + 3 := by
  simp [ingNatural]

/-- `Σ_n r_n Σ_i x_{n,i}²`. -/
def isoSecond (data : List (K × List K)) : K :=
  (data.map fun d => d.1 * (d.2.map (· ^ 2)).sum).sum

theorem C36_isonormalgamma_conjugate_update [CharZero K] (D : ℕ) (prior post : ING K)
    (data : List (K × List K)) (h1 : prior.mean.length = D) (h3 : post.mean.length = D)
    (hd : DataDim D data) (_hk : prior.scale + count data ≠ 0) :
    let k := prior.scale + count data
    let m := fun i => (prior.scale * prior.mean.getD i 0 + first data i) / k
    natGradUpdate ingNatural ingFromNatural prior post
      (wsum (D + 3) (data.map fun r => (r.1, ingStats r.2))) 1 =
    .ok { scale := k
          mean := (List.range D).map m
          shape := prior.shape + D / 2 * count data
          rate := prior.rate + (isoSecond data +
            prior.scale * (prior.mean.map (· ^ 2)).sum
            - k * ((List.range D).map fun i => m i ^ 2).sum) / 2 } := by
  intro k m
  have hsl : (wsum (D + 3) (data.map fun r => (r.1, ingStats r.2))).length = D + 3 := by
    apply length_wsum
    intro r hr
    obtain ⟨r', hr', rfl⟩ := List.mem_map.1 hr
    have := hd r' hr'
    simp [ingStats, this]
  have h2' : (2 : K) ≠ 0 := two_ne_zero
  unfold natGradUpdate
  rw [natGrad_one _ _ _ (by rw [length_ingNatural, length_ingNatural, h1, h3])
    (by rw [length_ingNatural, hsl, h3]), wsum_ingStats D data hd, ingNatural,
    vadd_blocks3 _ _ _ _ _ _ _ _ (by simp [length_wsum D data hd, h1]), ingFromNatural_blocks]
  have hs : -2 * (-(1/2) * prior.scale + -(1/2) * (data.map (·.1)).sum) = k := by
    simp only [k, count]; field_simp; ring
  simp only [hs]
  have hmean : List.map (fun x => x / k)
      (vadd (List.map (fun x => prior.scale * x) prior.mean) (wsum D data)) =
      (List.range D).map m := by
    apply ext_getD
    · simp [length_wsum D data hd, h1]
    · intro i hi
      have hi' : i < D := by simpa [length_wsum D data hd, h1] using hi
      have := getD_vsmul prior.scale prior.mean i
      simp only [vsmul] at this
      rw [getD_map_div, getD_vadd _ _ (by simp [length_wsum D data hd, h1]), this,
        getD_wsum D data hd, getD_range_map _ _ _ hi']
      rfl
  rw [hmean]
  simp only [Except.ok.injEq, ING.mk.injEq, true_and]
  have hsq : List.map (fun m => m * m) (List.map m (List.range D)) =
      (List.range D).map fun i => m i ^ 2 := by
    rw [List.map_map]
    apply List.map_congr_left
    intro i _
    simp only [Function.comp]; ring
  constructor
  · simp only [length_vadd, List.length_map, length_wsum D data hd, h1, min_self, count]; ring
  · rw [hsq]; simp only [isoSecond]; ring

theorem C36_isonormalgamma_update_order (D : ℕ) (prior post : ING K)
    (data data' : List (K × List K)) (h : data.Perm data') (l : K) :
    natGradUpdate ingNatural ingFromNatural prior post
      (wsum (D + 3) (data.map fun r => (r.1, ingStats r.2))) l =
    natGradUpdate ingNatural ingFromNatural prior post
      (wsum (D + 3) (data'.map fun r => (r.1, ingStats r.2))) l := by
  rw [wsum_perm _ (h.map _)]

example : natGradUpdate ingNatural ingFromNatural (⟨[1, 0], 1, 2, 3⟩ : ING ℚ) ⟨[9, 9], 9, 9, 9⟩
    (wsum 5 ([(1, [4, 0]), (1/2, [1, 2])].map fun r => (r.1, ingStats r.2))) 1 =
    .ok ⟨[11/5, 2/5], 5/2, 7/2, 13/2⟩ := by decide +kernel

end Verif.Props
