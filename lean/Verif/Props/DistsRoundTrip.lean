import Mathlib.Algebra.Ring.CharZero
import Mathlib.Algebra.Order.Ring.Rat
import Mathlib.Data.List.GetD
import Mathlib.Tactic.FieldSimp
import Mathlib.Tactic.NormNum
import Mathlib.Tactic.LinearCombination
import Mathlib.Tactic.Ring
import Verif.Lemmas.Dists

/-!
# C32, C34–C36 (round-trip part), C38 : natural parameters round-trip
-/

namespace Verif.Props

open Verif Verif.Dists

variable {K : Type*} [Field K]

/-! ## C32 : Dirichlet -/

theorem C32_dirichlet_roundtrip (c : List K) (hc : c ≠ []) :
    dirFromNatural (dirNatural c) = .ok c := by
  obtain ⟨l, x, rfl⟩ := List.eq_nil_or_concat c |>.resolve_left hc
  simp [dirFromNatural, dirNatural, Function.comp_def]

theorem C32_dirichlet_roundtrip_converse (n c : List K) (h : dirFromNatural n = .ok c) :
    dirNatural c = n ∧ c.length = n.length := by
  rcases List.eq_nil_or_concat n with rfl | ⟨l, x, rfl⟩
  · simp [dirFromNatural] at h
  · simp [dirFromNatural, Function.comp_def] at h
    subst h
    simp [dirNatural, Function.comp_def]

/-- The only vector that cannot be converted is the empty one. -/
theorem C32_dirichlet_error_iff (n : List K) :
    (∃ e, dirFromNatural n = .error e) ↔ n = [] := by
  rcases List.eq_nil_or_concat n with rfl | ⟨l, x, rfl⟩ <;> simp [dirFromNatural]

example : dirNatural ([2, 5, 3] : List ℚ) = [1, 4, 7] ∧
    dirFromNatural ([1, 4, 7] : List ℚ) = .ok [2, 5, 3] := by
  constructor <;> decide +kernel

/-! ## C34 : Gamma -/

theorem C34_gamma_roundtrip (p : GammaP K) (h : p.shape.length = p.rate.length) :
    gamFromNatural (gamNatural p) = .ok p := by
  obtain ⟨shape, rate⟩ := p
  simp only at h
  have hd : (gamNatural ⟨shape, rate⟩).length / 2 = (rate.map (- ·)).length := by
    simp [gamNatural, h]; omega
  simp only [gamFromNatural, hd]
  simp [gamNatural, Function.comp_def]

theorem C34_gamma_roundtrip_converse (n : List K) :
    ∃ p, gamFromNatural n = .ok p ∧ gamNatural p = n := by
  refine ⟨_, rfl, ?_⟩
  simp [gamNatural, Function.comp_def]

/-- When the number of natural parameters is even, the recovered shapes and rates have the same
dimension. -/
theorem C34_gamma_roundtrip_dim (d : ℕ) (n : List K) (hn : n.length = 2 * d) :
    ∃ p, gamFromNatural n = .ok p ∧ p.shape.length = d ∧ p.rate.length = d := by
  refine ⟨_, rfl, ?_, ?_⟩ <;> simp <;> omega

example : gamNatural (⟨[2, 3], [5, 7]⟩ : GammaP ℚ) = [-5, -7, 1, 2] ∧
    gamFromNatural ([-5, -7, 1, 2] : List ℚ) = .ok ⟨[2, 3], [5, 7]⟩ := by
  constructor <;> decide +kernel

/-! ## C35 : Normal-Gamma -/

theorem C35_normalgamma_roundtrip [CharZero K] (p : NG K) (h : p.rates.length = p.mean.length)
    (hk : p.scale ≠ 0) : ngFromNatural (ngNatural p) = .ok p := by
  obtain ⟨mean, k, a, rates⟩ := p
  simp only at h hk
  have h2 : (2 : K) ≠ 0 := two_ne_zero
  have hs : -2 * (-(1/2) * k) = k := by field_simp
  unfold ngNatural
  rw [ngFromNatural_blocks _ _ _ _ (by simp [h])]
  simp only [hs, Except.ok.injEq, NG.mk.injEq, List.map_map]
  have hm : List.map ((fun x => x / k) ∘ fun x => k * x) mean = mean := by
    rw [show ((fun x => x / k) ∘ fun x => k * x) = id from by
      funext x; simp [Function.comp]; field_simp]
    simp
  refine ⟨hm, trivial, by ring, ?_⟩
  rw [hm]
  apply List.ext_getElem (by simp [h])
  intro i h1 h2
  simp

theorem C35_normalgamma_roundtrip_converse [CharZero K] (d : ℕ) (n : List K)
    (hn : n.length = 2 * d + 2) (h3 : n.getD (2 * d) 0 ≠ 0) :
    ∃ p, ngFromNatural n = .ok p ∧ p.mean.length = d ∧ p.rates.length = d ∧ ngNatural p = n := by
  obtain ⟨A, B, c, e, rfl, hA, hB⟩ : ∃ A B c e, n = A ++ B ++ [c, e] ∧ A.length = d ∧
      B.length = d := by
    refine ⟨n.take d, (n.drop d).take d, n.getD (2 * d) 0, n.getD (2 * d + 1) 0, ?_, ?_, ?_⟩
    · apply List.ext_getElem
      · simp; omega
      · intro i h1 h2
        rcases Nat.lt_or_ge i (2 * d) with hi | hi
        · rw [List.getElem_append_left (by simp; omega)]
          rcases Nat.lt_or_ge i d with hi' | hi'
          · rw [List.getElem_append_left (by simp; omega)]; simp
          · rw [List.getElem_append_right (by simp; omega)]
            simp; congr 1; omega
        · rw [List.getElem_append_right (by simp; omega)]
          have : i = 2 * d ∨ i = 2 * d + 1 := by omega
          rcases this with rfl | rfl
          · have : 2 * d - (List.take d n ++ List.take d (List.drop d n)).length = 0 := by
              simp; omega
            simp only [this, List.getD_eq_getElem?_getD]; simp [h1]
          · have : 2 * d + 1 - (List.take d n ++ List.take d (List.drop d n)).length = 1 := by
              simp; omega
            simp only [this, List.getD_eq_getElem?_getD]; simp [h1]
    · simp; omega
    · simp; omega
  have hc : c ≠ 0 := by
    rw [show 2 * d = (A ++ B).length + 0 by simp; omega,
      List.getD_append_right _ _ _ _ (by omega)] at h3
    simpa using h3
  have h2 : (2 : K) ≠ 0 := two_ne_zero
  rw [ngFromNatural_blocks _ _ _ _ (by omega)]
  refine ⟨_, rfl, by simpa using hA, by simp [hA, hB], ?_⟩
  unfold ngNatural
  have h1 : List.map (fun x => -2 * c * x) (List.map (fun x => x / (-2 * c)) A) = A := by
    rw [List.map_map, show ((fun x => -2 * c * x) ∘ fun x => x / (-2 * c)) = id from by
      funext x; simp [Function.comp]; field_simp]
    simp
  rw [h1]
  congr 1
  · congr 1
    apply List.ext_getElem (by simp; omega)
    intro i h1 h2
    simp
  · simp only [List.cons.injEq, and_true]
    constructor
    · field_simp
    · ring

example : ngNatural (⟨[3, -1], 2, 5, [7, 11]⟩ : NG ℚ) = [6, -2, -16, -12, -1, 9/2] ∧
    ngFromNatural ([6, -2, -16, -12, -1, 9/2] : List ℚ) = .ok ⟨[3, -1], 2, 5, [7, 11]⟩ := by
  constructor <;> decide +kernel

/-! ## C36 : isotropic Normal-Gamma -/

theorem C36_isonormalgamma_roundtrip [CharZero K] (p : ING K) (hk : p.scale ≠ 0) :
    ingFromNatural (ingNatural p) = .ok p := by
  obtain ⟨mean, k, a, b⟩ := p
  simp only at hk
  have h2 : (2 : K) ≠ 0 := two_ne_zero
  have hs : -2 * (-(1/2) * k) = k := by field_simp
  unfold ingNatural
  rw [ingFromNatural_blocks]
  simp only [hs, Except.ok.injEq, ING.mk.injEq]
  have hm : List.map (fun x => x / k) (List.map (fun x => k * x) mean) = mean := by
    rw [List.map_map, show ((fun x => x / k) ∘ fun x => k * x) = id from by
      funext x; simp [Function.comp]; field_simp]
    simp
  refine ⟨hm, trivial, by simp only [List.length_map]; ring, ?_⟩
  rw [hm]
  have : (fun m : K => m * m) = (· ^ 2) := by funext m; ring
  rw [this]; ring

theorem C36_isonormalgamma_roundtrip_converse [CharZero K] (d : ℕ) (n : List K)
    (hn : n.length = d + 3) (h3 : n.getD (d + 1) 0 ≠ 0) :
    ∃ p, ingFromNatural n = .ok p ∧ p.mean.length = d ∧ ingNatural p = n := by
  obtain ⟨A, b, c, e, rfl, hA⟩ : ∃ A b c e, n = A ++ [b, c, e] ∧ A.length = d := by
    refine ⟨n.take d, n.getD d 0, n.getD (d + 1) 0, n.getD (d + 2) 0, ?_, ?_⟩
    · apply List.ext_getElem
      · simp; omega
      · intro i h1 h2
        rcases Nat.lt_or_ge i d with hi | hi
        · rw [List.getElem_append_left (by simp; omega)]; simp
        · rw [List.getElem_append_right (by simp; omega)]
          have hl : (List.take d n).length = d := by simp; omega
          have : i = d ∨ i = d + 1 ∨ i = d + 2 := by omega
          rcases this with rfl | rfl | rfl <;>
            simp [hn, List.getD_eq_getElem?_getD]
    · simp; omega
  have hc : c ≠ 0 := by
    rw [List.getD_append_right _ _ _ _ (by omega), hA] at h3
    simpa using h3
  have h2 : (2 : K) ≠ 0 := two_ne_zero
  rw [ingFromNatural_blocks]
  refine ⟨_, rfl, by simpa using hA, ?_⟩
  unfold ingNatural
  have h1 : List.map (fun x => -2 * c * x) (List.map (fun x => x / (-2 * c)) A) = A := by
    rw [List.map_map, show ((fun x => -2 * c * x) ∘ fun x => x / (-2 * c)) = id from by
      funext x; simp [Function.comp]; field_simp]
    simp
  rw [h1]
  congr 1
  have : (fun m : K => m * m) = (· ^ 2) := by funext m; ring
  simp only [List.cons.injEq, and_true, this]
  refine ⟨by ring, by field_simp, ?_⟩
  simp only [List.length_map]; ring

example : ingNatural (⟨[3, -1], 2, 5, 7⟩ : ING ℚ) = [6, -2, -17, -1, 5] ∧
    ingFromNatural ([6, -2, -17, -1, 5] : List ℚ) = .ok ⟨[3, -1], 2, 5, 7⟩ := by
  constructor <;> decide +kernel

/-! ## C38 : diagonal Normal — violated -/

/-- What the code computes instead of the identity: the variance is multiplied by `-1/2` (it
becomes negative), and so is the mean. -/
theorem C38_normaldiag_actual [CharZero K] (p : ND K) (h : p.diagCov.length = p.mean.length)
    (hs : ∀ s ∈ p.diagCov, s ≠ 0) :
    ndFromNatural (ndNatural p) =
      { mean := p.mean.map (-(1/2) * ·), diagCov := p.diagCov.map (-(1/2) * ·) } := by
  obtain ⟨mean, cov⟩ := p
  simp only at h hs
  have h2 : (2 : K) ≠ 0 := two_ne_zero
  have hl : (List.zipWith (fun s m => 1 / s * m) cov mean).length = cov.length := by simp [h]
  have hd : (ndNatural (⟨mean, cov⟩ : ND K)).length / 2 =
      (List.zipWith (fun s m => 1 / s * m) cov mean).length := by
    simp only [ndNatural, List.length_append, hl, List.length_map]; omega
  have e1 : (ndNatural (⟨mean, cov⟩ : ND K)).take
      (List.zipWith (fun s m => 1 / s * m) cov mean).length =
      List.zipWith (fun s m => 1 / s * m) cov mean := by simp [ndNatural]
  have e2 : ((ndNatural (⟨mean, cov⟩ : ND K)).take
      (2 * (List.zipWith (fun s m => 1 / s * m) cov mean).length)).drop
        (List.zipWith (fun s m => 1 / s * m) cov mean).length = cov.map (1 / ·) := by
    rw [List.take_of_length_le]
    · simp [ndNatural]
    · simp only [ndNatural, List.length_append, hl, List.length_map]; omega
  unfold ndFromNatural
  dsimp only
  rw [hd, e1, e2]
  simp only [ND.mk.injEq]
  constructor
  · apply List.ext_getElem (by simp [h])
    intro i h1 h2
    have : cov[i]'(by simp at h1; omega) ≠ 0 := hs _ (List.getElem_mem _)
    simp
    field_simp
  · rw [List.map_map]
    apply List.map_congr_left
    intro s hs'
    have := hs s hs'
    simp
    field_simp

/-- C38 is false: no distribution with at least one dimension survives the round trip. -/
theorem C38_negation_never_roundtrips [CharZero K] (p : ND K)
    (h : p.diagCov.length = p.mean.length) (hs : ∀ s ∈ p.diagCov, s ≠ 0) (hne : p.diagCov ≠ []) :
    ndFromNatural (ndNatural p) ≠ p := by
  rw [C38_normaldiag_actual p h hs]
  intro e
  obtain ⟨mean, cov⟩ := p
  simp only [ND.mk.injEq] at e
  obtain ⟨s, l, rfl⟩ := List.exists_cons_of_ne_nil hne
  have h0 : s ≠ 0 := hs s (by simp)
  have e2 := e.2
  simp only [List.map_cons, List.cons.injEq] at e2
  have h2 : (2 : K) ≠ 0 := two_ne_zero
  have := e2.1
  field_simp at this
  have h3 : (3 : K) = 0 := by linear_combination -this
  exact absurd h3 (by exact_mod_cast (show (3:ℕ) ≠ 0 by decide))

/-- Partial positive statement: the ratios mean / variance (the first natural parameters) are
kept. -/
theorem C38_normaldiag_ratio_partial [CharZero K] (p : ND K)
    (h : p.diagCov.length = p.mean.length) (hs : ∀ s ∈ p.diagCov, s ≠ 0) (i : ℕ)
    (hi : i < p.mean.length) :
    (ndFromNatural (ndNatural p)).mean.getD i 0 / (ndFromNatural (ndNatural p)).diagCov.getD i 0
      = p.mean.getD i 0 / p.diagCov.getD i 0 := by
  rw [C38_normaldiag_actual p h hs]
  have hi' : i < p.diagCov.length := by omega
  have : p.diagCov[i] ≠ 0 := hs _ (List.getElem_mem _)
  simp [List.getD_eq_getElem?_getD, hi, hi']
  field_simp

example : ndFromNatural (ndNatural (⟨[4], [2]⟩ : ND ℚ)) = ⟨[-2], [-1]⟩ := by decide +kernel

end Verif.Props
