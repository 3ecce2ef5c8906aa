import Verif.Lemmas.Scripts
import Mathlib.Algebra.Order.BigOperators.Group.List
import Mathlib.Algebra.BigOperators.Group.List.Basic
import Mathlib.Algebra.Order.Field.Basic
import Mathlib.Tactic.Positivity

namespace Verif.Scripts

open Verif Pipeline ScriptSpec

variable {F : Type} [Field F]

theorem getD_sq (r : List F) (j : ℕ) : (r.map (· ^ 2)).getD j 0 = (r.getD j 0) ^ 2 := by
  rw [List.getD_eq_getElem?_getD, List.getD_eq_getElem?_getD, List.getElem?_map]
  cases r[j]? <;> simp

theorem addInPlace_same (d : ℕ) (f g : ℕ → F) :
    addInPlace ((List.range d).map f) ((List.range d).map g) = .ok ((List.range d).map fun j => f j + g j) := by
  unfold addInPlace
  rw [if_pos (by simp), List.zipWith_map, List.zipWith_self]

theorem statsLoop_eq (d : ℕ) (feats : List (ℕ × List (List F))) (h : ∀ u ∈ feats, u.1 = d) (f g : ℕ → F) (c : ℕ) :
    statsLoop feats ((List.range d).map f) ((List.range d).map g) c =
      .ok ((List.range d).map (fun j => f j + (column feats j).sum),
        (List.range d).map (fun j => g j + ((column feats j).map (· ^ 2)).sum),
        c + (feats.flatMap Prod.snd).length) := by
  induction feats generalizing f g c with
  | nil => simp [statsLoop, column]
  | cons u feats ih =>
    obtain ⟨d', rows⟩ := u
    have hd : d' = d := h (d', rows) List.mem_cons_self
    subst hd
    rw [statsLoop]
    unfold colSums
    rw [addInPlace_same, addInPlace_same]
    dsimp only
    rw [ih fun v hv => h v (List.mem_cons_of_mem _ hv)]
    congr 2
    · apply List.map_congr_left
      intro j _
      simp [column, add_assoc]
    · congr 1
      · apply List.map_congr_left
        intro j _
        simp only [column, List.map_map, Function.comp_def, getD_sq, List.flatMap_cons, List.map_append,
          List.sum_append, add_assoc]
      · simp [add_assoc]

theorem sum_sq_dev (xs : List F) (m : F) :
    (xs.map fun x => (x - m) ^ 2).sum = (xs.map (· ^ 2)).sum - 2 * m * xs.sum + xs.length * m ^ 2 := by
  induction xs with
  | nil => simp
  | cons x xs ih =>
    simp only [List.map_cons, List.sum_cons, ih, List.length_cons, Nat.cast_add, Nat.cast_one]
    ring

theorem varOf_eq [CharZero F] (xs : List F) (h : xs ≠ []) :
    varOf xs = (xs.map (· ^ 2)).sum / xs.length - (meanOf xs) ^ 2 := by
  have hn : (xs.length : F) ≠ 0 := by
    rw [Nat.cast_ne_zero]
    simpa using h
  unfold varOf
  rw [sum_sq_dev]
  unfold meanOf
  field_simp
  ring

theorem featsStats_eq [CharZero F] (d : ℕ) (feats : List (ℕ × List (List F))) (h : ∀ u ∈ feats, u.1 = d)
    (hf : feats.flatMap Prod.snd ≠ []) :
    featsStats feats = .ok ((List.range d).map (fun j => meanOf (column feats j)),
      (List.range d).map (fun j => varOf (column feats j)), (feats.flatMap Prod.snd).length) := by
  cases feats with
  | nil => exact absurd rfl hf
  | cons u feats =>
    obtain ⟨d', rows⟩ := u
    have hd : d' = d := h (d', rows) List.mem_cons_self
    subst hd
    unfold featsStats
    dsimp only
    have hr : List.replicate d' (0 : F) = (List.range d').map fun _ => 0 := by simp
    rw [hr, statsLoop_eq d' _ h]
    dsimp only
    have hlen : ∀ j, ((column ((d', rows) :: feats) j).length) =
        ((((d', rows) :: feats).flatMap Prod.snd).length) := fun j => by
      unfold column; rw [List.length_map]
    have hne : ∀ j, column ((d', rows) :: feats) j ≠ [] := fun j hc => by
      unfold column at hc
      rw [List.map_eq_nil_iff] at hc
      exact hf hc
    congr 2
    · rw [List.map_map]
      apply List.map_congr_left
      intro j _
      simp only [Function.comp, zero_add, meanOf, hlen]
    · congr 1
      · rw [List.map_map, List.zipWith_map, List.zipWith_self]
        apply List.map_congr_left
        intro j _
        rw [varOf_eq _ (hne j)]
        simp only [Function.comp, zero_add, meanOf, hlen]
      · simp

theorem varOf_nonneg {K : Type} [Field K] [LinearOrder K] [IsStrictOrderedRing K] (xs : List K) : 0 ≤ varOf xs := by
  unfold varOf
  apply div_nonneg
  · apply List.sum_nonneg
    intro x hx
    obtain ⟨y, _, rfl⟩ := List.mem_map.1 hx
    positivity
  · positivity

theorem varOf_zero {K : Type} [Field K] [LinearOrder K] [IsStrictOrderedRing K] (xs : List K) :
    varOf xs = 0 ↔ ∀ x ∈ xs, ∀ y ∈ xs, x = y := by
  rcases eq_or_ne xs [] with rfl | hne
  · simp [varOf]
  have hn : (xs.length : K) ≠ 0 := by
    rw [Nat.cast_ne_zero]
    simpa using hne
  constructor
  · intro h
    unfold varOf at h
    rw [div_eq_zero_iff, or_iff_left hn] at h
    have hall : ∀ x ∈ xs, x = meanOf xs := by
      intro x hx
      have hle := List.single_le_sum (l := xs.map fun x => (x - meanOf xs) ^ 2) (by
        intro z hz
        obtain ⟨y, _, rfl⟩ := List.mem_map.1 hz
        positivity) ((x - meanOf xs) ^ 2) (List.mem_map.2 ⟨x, hx, rfl⟩)
      rw [h] at hle
      have : (x - meanOf xs) ^ 2 = 0 := le_antisymm hle (by positivity)
      have := pow_eq_zero_iff (two_ne_zero) |>.1 this
      linarith
    intro x hx y hy
    rw [hall x hx, hall y hy]
  · intro h
    obtain ⟨a, ha⟩ := List.exists_mem_of_ne_nil xs hne
    have hc : xs = List.replicate xs.length a := List.eq_replicate_iff.2 ⟨rfl, fun b hb => h b hb a ha⟩
    have hm : meanOf xs = a := by
      unfold meanOf
      nth_rw 1 [hc]
      rw [List.sum_replicate, nsmul_eq_mul]
      field_simp
    unfold varOf
    rw [hm]
    have : (xs.map fun x => (x - a) ^ 2).sum = 0 := by
      rw [hc]; simp
    rw [this, zero_div]

theorem column_perm (f1 f2 : List (ℕ × List (List F))) (h : (f1.flatMap Prod.snd).Perm (f2.flatMap Prod.snd)) (j : ℕ) :
    (column f1 j).Perm (column f2 j) := h.map _

theorem meanOf_perm (a b : List F) (h : a.Perm b) : meanOf a = meanOf b := by
  unfold meanOf
  rw [h.sum_eq, h.length_eq]

theorem varOf_perm (a b : List F) (h : a.Perm b) : varOf a = varOf b := by
  unfold varOf
  rw [meanOf_perm a b h, (h.map _).sum_eq, h.length_eq]

/-- An utterance of another dimension, not 1. -/
theorem statsLoop_error (d : ℕ) (feats : List (ℕ × List (List F))) (h : ∃ u ∈ feats, u.1 ≠ d ∧ u.1 ≠ 1)
    (s q : List F) (hs : s.length = d) (hq : q.length = d) (c : ℕ) :
    statsLoop feats s q c = .error .valueError := by
  induction feats generalizing s q c with
  | nil => simp at h
  | cons u feats ih =>
    obtain ⟨d', rows⟩ := u
    have hlen : ∀ (rows : List (List F)), (colSums d' rows).length = d' := fun rows => by simp [colSums]
    have bad : ∀ (s v : List F), s.length = d → v.length ≠ d → v.length ≠ 1 → addInPlace s v = .error .valueError := by
      intro s v h1 h2 h3
      unfold addInPlace
      rw [if_neg (by omega)]
      match v with
      | [] => rfl
      | [x] => simp at h3
      | _ :: _ :: _ => rfl
    have good : ∀ (s v : List F), s.length = d → (v.length = d ∨ v.length = 1) →
        ∃ r, addInPlace s v = .ok r ∧ r.length = d := by
      intro s v h1 h2
      unfold addInPlace
      by_cases h3 : v.length = s.length
      · rw [if_pos h3]
        exact ⟨_, rfl, by simp [h3, h1]⟩
      · rw [if_neg h3]
        rcases h2 with h2 | h2
        · omega
        · match v, h2 with
          | [x], _ => exact ⟨_, rfl, by simpa using h1⟩
    rw [statsLoop]
    by_cases hu : d' ≠ d ∧ d' ≠ 1
    · rw [bad s _ hs (by rw [hlen]; exact hu.1) (by rw [hlen]; exact hu.2)]
    · have hu2 : d' = d ∨ d' = 1 := by tauto
      obtain ⟨r, h1, h2⟩ := good s (colSums d' rows) hs (by rw [hlen]; exact hu2)
      obtain ⟨r', h1', h2'⟩ := good q (colSums d' (rows.map fun r => r.map (· ^ 2))) hq (by rw [hlen]; exact hu2)
      rw [h1, h1']
      dsimp only
      refine ih ?_ _ _ h2 h2' _
      obtain ⟨v, hv, h3⟩ := h
      rw [List.mem_cons] at hv
      rcases hv with rfl | hv
      · exact absurd h3 hu
      · exact ⟨v, hv, h3⟩

end Verif.Scripts
