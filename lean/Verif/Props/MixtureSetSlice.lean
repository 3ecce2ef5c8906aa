import Verif.Spec.ModelSet
import Mathlib.Tactic.Ring
import Mathlib.Tactic.Linarith
import Mathlib.Data.List.Basic

/-!
# C45: slicing a set of mixtures
-/

namespace Verif.Props

open Verif.ModelSet

variable {α β : Type}

theorem everyNth_one {γ : Type*} (l : List γ) : everyNth 1 l = l := by
  unfold everyNth
  have h : ∀ (l : List γ), (List.range l.length).filterMap (fun i => l[i]?) = l := by
    intro l
    induction l with
    | nil => simp
    | cons a l ih =>
      rw [List.length_cons, List.range_succ_eq_map, List.filterMap_cons]
      simp only [List.getElem?_cons_zero, List.filterMap_map]
      congr 1
  simpa [Nat.mod_one] using h l

theorem everyNth_length_lt {γ : Type*} (k : ℕ) (hk : 2 ≤ k) (l : List γ) (hl : 2 ≤ l.length) :
    (everyNth k l).length < l.length := by
  unfold everyNth
  have : ((List.range l.length).filterMap fun i => if i % k = 0 then l[i]? else none).length
      < (List.range l.length).length := by
    rw [List.length_filterMap_lt_length_iff_exists]
    refine ⟨1, by simp; omega, ?_⟩
    rw [if_neg]
    rw [Nat.mod_eq_of_lt (by omega)]
    omega
  simpa using this

theorem flatMap_take_mul (C : ℕ) (l : List (α × List β)) (h : ∀ x ∈ l, x.2.length = C) (k : ℕ) :
    (l.flatMap Prod.snd).take (k * C) = (l.take k).flatMap Prod.snd := by
  induction l generalizing k with
  | nil => simp
  | cons a l ih =>
    cases k with
    | zero => simp
    | succ k =>
      have ha := h a (by simp)
      have e : (k + 1) * C = C + k * C := by ring
      rw [List.flatMap_cons, e, List.take_append, List.take_succ_cons, List.flatMap_cons, ha,
        List.take_of_length_le (by omega), Nat.add_sub_cancel_left,
        ih (fun x hx => h x (List.mem_cons_of_mem _ hx))]

theorem flatMap_drop_mul (C : ℕ) (l : List (α × List β)) (h : ∀ x ∈ l, x.2.length = C) (k : ℕ) :
    (l.flatMap Prod.snd).drop (k * C) = (l.drop k).flatMap Prod.snd := by
  induction l generalizing k with
  | nil => simp
  | cons a l ih =>
    cases k with
    | zero => simp
    | succ k =>
      have ha := h a (by simp)
      have e : (k + 1) * C = C + k * C := by ring
      rw [List.flatMap_cons, e, List.drop_append, List.drop_succ_cons, ha,
        List.drop_of_length_le (by omega), Nat.add_sub_cancel_left,
        ih (fun x hx => h x (List.mem_cons_of_mem _ hx)), List.nil_append]

theorem flatMap_length_mul (C : ℕ) (l : List (α × List β)) (h : ∀ x ∈ l, x.2.length = C) :
    (l.flatMap Prod.snd).length = l.length * C := by
  induction l with
  | nil => simp
  | cons a l ih =>
    rw [List.flatMap_cons, List.length_append, ih (fun x hx => h x (List.mem_cons_of_mem _ hx)),
      h a (by simp), List.length_cons]
    ring

theorem ncpm_ofMixtures (C : ℕ) (l : List (α × List β)) (h : ∀ x ∈ l, x.2.length = C) (hl : l ≠ []) :
    (ofMixtures l).ncpm = .ok C := by
  have hpos : 0 < l.length := List.length_pos_iff.2 hl
  unfold MixSet.ncpm ofMixtures
  simp only [List.length_map]
  rw [if_neg (by omega), flatMap_length_mul C l h, Nat.mul_div_cancel_left _ hpos]

/-- Scaling a slice bound. -/
theorem clampIdx_mul (n C : ℕ) (hC : 0 < C) (i : ℤ) : clampIdx (n * C) (i * C) = clampIdx n i * C := by
  unfold clampIdx
  have hC' : (0 : ℤ) < C := by exact_mod_cast hC
  by_cases hi : i < 0
  · rw [if_pos hi, if_pos (by nlinarith)]
    push_cast
    rw [← add_mul]
    by_cases h2 : 0 ≤ i + n
    · rw [Int.toNat_mul h2 (by omega), Int.toNat_natCast]
    · rw [Int.toNat_of_nonpos (by nlinarith), Int.toNat_of_nonpos (by omega), zero_mul]
  · rw [if_neg hi, if_neg (by nlinarith), Int.toNat_mul (by omega) (by omega), Int.toNat_natCast,
      ← Nat.mul_min_mul_right]

theorem flatMap_slice_mul (C : ℕ) (l : List (α × List β)) (h : ∀ x ∈ l, x.2.length = C) (b e : ℕ) :
    ((l.flatMap Prod.snd).take (e * C)).drop (b * C) = ((l.take e).drop b).flatMap Prod.snd := by
  rw [flatMap_take_mul C l h, flatMap_drop_mul C _ (fun x hx => h x (List.mem_of_mem_take hx))]

/-- C45, integer keys (partial: every key but `-1`): the mixture at that position, with its own
categorical and components, or `IndexError`. -/
theorem C45_index_partial (C : ℕ) (hC : 0 < C) (l : List (α × List β)) (hl : l ≠ [])
    (h : ∀ x ∈ l, x.2.length = C) (key : ℤ) (hkey : key ≠ -1) :
    (ofMixtures l).getIdx key = getInt l key := by
  unfold MixSet.getIdx
  rw [ncpm_ofMixtures C l h hl]
  simp only [ofMixtures, getInt, List.length_map, bind, Except.bind, pure, Except.pure]
  rcases hn : normIdx l.length key with _ | k
  · rfl
  · have hk : k < l.length ∧ clampIdx l.length key = k ∧ clampIdx l.length (key + 1) = k + 1 := by
      unfold normIdx at hn
      unfold clampIdx
      by_cases h0 : 0 ≤ key
      · rw [if_pos h0] at hn
        by_cases h1 : key < l.length
        · rw [if_pos h1] at hn
          obtain rfl := Option.some.inj hn
          rw [if_neg (by omega), if_neg (by omega)]
          omega
        · rw [if_neg h1] at hn; cases hn
      · rw [if_neg h0] at hn
        by_cases h1 : -(l.length : ℤ) ≤ key
        · rw [if_pos h1] at hn
          obtain rfl := Option.some.inj hn
          rw [if_pos (by omega), if_pos (by omega)]
          omega
        · rw [if_neg h1] at hn; cases hn
    obtain ⟨hk, e1, e2⟩ := hk
    simp only [List.getElem?_map, List.getElem?_eq_getElem hk, Option.map_some]
    unfold pySlice
    rw [if_neg (by simp)]
    simp only [flatMap_length_mul C l h, clampIdx_mul _ C hC, e1, e2, Option.getD_none]
    rw [flatMap_slice_mul C l h, show (1 : ℤ).toNat = 1 from rfl, everyNth_one]
    have : (l.take (k + 1)).drop k = [l[k]] := by
      rw [List.take_add_one, List.drop_append, List.getElem?_eq_getElem hk]
      simp [hk.le]
    rw [this]
    simp

example : (ofMixtures [("a", [1, 2]), ("b", [3, 4]), ("c", [5, 6])]).getIdx (-2) = .ok ("b", [3, 4])
    := by decide +kernel

/-- C45, negation for the key `-1`: whatever the set, the last mixture comes without any component. -/
theorem C45_minus_one_negation (C : ℕ) (hC : 0 < C) (l : List (α × List β)) (hl : l ≠ [])
    (h : ∀ x ∈ l, x.2.length = C) :
    (ofMixtures l).getIdx (-1) = .ok ((l.getLast hl).1, []) ∧
    (ofMixtures l).getIdx (-1) ≠ getInt l (-1) := by
  have hpos : 0 < l.length := List.length_pos_iff.2 hl
  have hn : normIdx l.length (-1) = some (l.length - 1) := by
    unfold normIdx
    rw [if_neg (by omega), if_pos (by omega)]
    congr 1
    omega
  have hk : l.length - 1 < l.length := by omega
  have key : (ofMixtures l).getIdx (-1) = .ok ((l.getLast hl).1, []) := by
    unfold MixSet.getIdx
    rw [ncpm_ofMixtures C l h hl]
    simp only [ofMixtures, getInt, List.length_map, bind, Except.bind, pure, Except.pure, hn]
    simp only [List.getElem?_map, List.getElem?_eq_getElem hk, Option.map_some]
    unfold pySlice
    rw [if_neg (by simp)]
    have e : clampIdx (l.flatMap Prod.snd).length ((-1 + 1) * (C : ℤ)) = 0 := by
      simp [clampIdx]
    simp only [e]
    simp [everyNth, List.getLast_eq_getElem]
  refine ⟨key, ?_⟩
  rw [key]
  unfold getInt
  rw [hn]
  simp only [List.getElem?_eq_getElem hk]
  intro hcon
  have h1 := Except.ok.inj hcon
  have h2 := h _ (List.getElem_mem hk)
  rw [← h1] at h2
  simp at h2
  omega

example : (ofMixtures [("a", [1, 2]), ("b", [3, 4])]).getIdx (-1) = .ok ("b", []) := by decide +kernel

/-- C45, slices without step and with an explicit stop (partial): for all starts and stops, negative
or out of range included, the mixtures selected by the slice. -/
theorem C45_slice_partial (C : ℕ) (hC : 0 < C) (l : List (α × List β)) (hl : l ≠ [])
    (h : ∀ x ∈ l, x.2.length = C) (start : Option ℤ) (stop : ℤ) :
    (ofMixtures l).getSlice ⟨start, some stop, none⟩ =
      (pySlice ⟨start, some stop, none⟩ l).map ofMixtures := by
  unfold MixSet.getSlice
  rw [ncpm_ofMixtures C l h hl]
  simp only [ofMixtures, bind, Except.bind, pure, Except.pure, pySlice, Option.getD_none,
    Option.getD_some, List.length_map, Except.map]
  simp only [show ¬ ((1 : ℤ) ≤ 0) by omega, if_false]
  simp only [flatMap_length_mul C l h, clampIdx_mul _ C hC, show (1 : ℤ).toNat = 1 from rfl,
    everyNth_one]
  rcases start with _ | start
  · have e : clampIdx (l.length * C) 0 = 0 * C := by simp [clampIdx]
    simp only [e, flatMap_slice_mul C l h]
    rw [← List.map_take, ← List.map_drop]
  · simp only [clampIdx_mul _ C hC, flatMap_slice_mul C l h]
    rw [← List.map_take, ← List.map_drop]

example : (ofMixtures [("a", [1, 2]), ("b", [3, 4]), ("c", [5, 6])]).getSlice ⟨some (-2), some 7, none⟩
    = .ok (ofMixtures [("b", [3, 4]), ("c", [5, 6])]) := by decide +kernel

theorem everyNth_map {γ δ : Type*} (f : γ → δ) (k : ℕ) (l : List γ) :
    everyNth k (l.map f) = (everyNth k l).map f := by
  unfold everyNth
  rw [List.map_filterMap, List.length_map]
  congr 1
  funext i
  by_cases hi : i % k = 0 <;> simp [hi]

theorem pySlice_map {γ δ : Type*} (f : γ → δ) (s : PySlice) (l : List γ) :
    pySlice s (l.map f) = (pySlice s l).map (List.map f) := by
  unfold pySlice
  split_ifs with h
  · rfl
  · simp only [Except.map, List.length_map, ← List.map_take, ← List.map_drop, everyNth_map]

/-- C45, sets of single-component mixtures (partial): every slice is right, steps included. -/
theorem C45_single_component_partial (l : List (α × List β)) (hl : l ≠ [])
    (h : ∀ x ∈ l, x.2.length = 1) (s : PySlice) :
    (ofMixtures l).getSlice s = (pySlice s l).map ofMixtures := by
  have hex : ∃ l' : List (α × β), l = l'.map fun p => (p.1, [p.2]) := by
    clear hl
    induction l with
    | nil => exact ⟨[], rfl⟩
    | cons x l ih =>
      obtain ⟨l', rfl⟩ := ih fun y hy => h y (List.mem_cons_of_mem _ hy)
      obtain ⟨a, bs⟩ := x
      have hb := h (a, bs) (by simp)
      obtain ⟨b, rfl⟩ := List.length_eq_one_iff.1 hb
      exact ⟨(a, b) :: l', by simp⟩
  unfold MixSet.getSlice
  rw [ncpm_ofMixtures 1 l h hl]
  clear h hl
  obtain ⟨l, rfl⟩ := hex
  have hf : ∀ l : List (α × β), ofMixtures (l.map fun p => (p.1, [p.2])) =
      ⟨l.map Prod.fst, l.map Prod.snd⟩ := by
    intro l
    have hs : (l.map fun p : α × β => (p.1, [p.2])).flatMap Prod.snd = l.map Prod.snd := by
      induction l with
      | nil => rfl
      | cons a l ih => rw [List.map_cons, List.flatMap_cons, ih]; rfl
    simp [ofMixtures, hs]
  obtain ⟨start, stop, step⟩ := s
  rw [hf]
  simp only [bind, Except.bind, pure, Except.pure, pySlice_map, List.length_map, Nat.cast_one,
    mul_one]
  have h0 : ∀ b c, pySlice ⟨none, b, c⟩ l = pySlice ⟨some 0, b, c⟩ l := by
    intro b c
    simp [pySlice, clampIdx]
  have h1 : ∀ a c, pySlice ⟨a, none, c⟩ l = pySlice ⟨a, some l.length, c⟩ l := by
    intro a c
    have e : clampIdx l.length (l.length : ℤ) = l.length := by simp [clampIdx]
    simp only [pySlice, e]
  have h2 : ∀ a b, pySlice ⟨a, b, none⟩ l = pySlice ⟨a, b, some 1⟩ l := by
    intro a c
    simp [pySlice]
  rcases start with _ | start <;> rcases stop with _ | stop <;> rcases step with _ | step <;>
    simp only [h0, h1, h2] <;> generalize pySlice _ l = x <;> rcases x with err | sel <;>
    simp only [Except.map, hf]

example : (ofMixtures [("a", [1]), ("b", [3]), ("c", [5])]).getSlice ⟨some (-3), none, some 2⟩ =
    .ok (ofMixtures [("a", [1]), ("c", [5])]) := by decide +kernel

/-- C45, negation for open-ended slices: `mixtures[:]` keeps all the categoricals but only the first
`len(mixtures)` components, for every set whose mixtures have at least two components. -/
theorem C45_open_slice_negation (C : ℕ) (hC : 2 ≤ C) (l : List (α × List β)) (hl : l ≠ [])
    (h : ∀ x ∈ l, x.2.length = C) :
    (ofMixtures l).getSlice ⟨none, none, none⟩ =
      .ok ⟨l.map Prod.fst, (l.flatMap Prod.snd).take l.length⟩ ∧
    (ofMixtures l).getSlice ⟨none, none, none⟩ ≠ (pySlice ⟨none, none, none⟩ l).map ofMixtures := by
  have hpos : 0 < l.length := List.length_pos_iff.2 hl
  have key : (ofMixtures l).getSlice ⟨none, none, none⟩ =
      .ok ⟨l.map Prod.fst, (l.flatMap Prod.snd).take l.length⟩ := by
    unfold MixSet.getSlice
    rw [ncpm_ofMixtures C l h hl]
    simp only [ofMixtures, bind, Except.bind, pure, Except.pure, pySlice, Option.getD_none,
      Option.getD_some, List.length_map]
    simp only [show ¬ ((1 : ℤ) ≤ 0) by omega, if_false]
    have e : clampIdx (l.flatMap Prod.snd).length 0 = 0 := by simp [clampIdx]
    have e2 : clampIdx (l.flatMap Prod.snd).length (l.length : ℤ) = l.length := by
      unfold clampIdx
      rw [if_neg (by omega), flatMap_length_mul C l h, Int.toNat_natCast]
      exact min_eq_left (Nat.le_mul_of_pos_right _ (by omega))
    simp only [e, e2, show (1 : ℤ).toNat = 1 from rfl, everyNth_one, List.drop_zero]
    rw [List.take_of_length_le (by simp)]
  refine ⟨key, ?_⟩
  rw [key]
  unfold pySlice
  rw [if_neg (by simp)]
  simp only [Except.map, ofMixtures]
  intro hcon
  have h1 := congrArg (fun m : MixSet α β => m.comps.length) (Except.ok.inj hcon)
  simp only [Option.getD_none, show (1 : ℤ).toNat = 1 from rfl, everyNth_one, List.drop_zero,
    List.take_length, List.length_take, flatMap_length_mul C l h] at h1
  have h2 : l.length < l.length * C := by nlinarith
  omega

example : (ofMixtures [("a", [1, 2]), ("b", [3, 4])]).getSlice ⟨some 0, none, none⟩ =
    .ok ⟨["a", "b"], [1, 2]⟩ := by decide +kernel

/-- C45, negation for slices with a step: `mixtures[0:n:1]` loses components, for every set whose
mixtures have at least two components. -/
theorem C45_step_negation (C : ℕ) (hC : 2 ≤ C) (l : List (α × List β)) (hl : l ≠ [])
    (h : ∀ x ∈ l, x.2.length = C) :
    (ofMixtures l).getSlice ⟨some 0, some l.length, some 1⟩ ≠
      (pySlice ⟨some 0, some l.length, some 1⟩ l).map ofMixtures := by
  have hpos : 0 < l.length := List.length_pos_iff.2 hl
  have h2 : 2 ≤ l.length * C := by nlinarith
  unfold MixSet.getSlice
  rw [ncpm_ofMixtures C l h hl]
  simp only [ofMixtures, bind, Except.bind, pure, Except.pure, pySlice,
    Option.getD_some, List.length_map]
  simp only [show ¬ ((1 : ℤ) ≤ 0) by omega, if_false, Except.map]
  rw [if_neg (show ¬ (1 * (C : ℤ) ≤ 0) by omega)]
  intro hcon
  have h1 := congrArg (fun m : MixSet α β => m.comps.length) (Except.ok.inj hcon)
  simp only [show (1 : ℤ).toNat = 1 from rfl, everyNth_one, flatMap_length_mul C l h,
    clampIdx_mul _ C (by omega : 0 < C)] at h1
  have e0 : ∀ n, clampIdx n 0 = 0 := fun n => by simp [clampIdx]
  have e1 : clampIdx l.length (l.length : ℤ) = l.length := by simp [clampIdx]
  simp only [e0, e1, List.drop_zero, List.take_length, one_mul, Int.toNat_natCast, zero_mul,
    ofMixtures] at h1
  rw [List.take_of_length_le (by rw [flatMap_length_mul C l h])] at h1
  have h3 := everyNth_length_lt C hC (l.flatMap Prod.snd) (by rwa [flatMap_length_mul C l h])
  rw [h1, flatMap_length_mul C l h] at h3
  omega

example : (ofMixtures [("a", [1, 2]), ("b", [3, 4])]).getSlice ⟨some 0, some 2, some 1⟩ =
    .ok ⟨["a", "b"], [1, 3]⟩ := by decide +kernel

/-- C45, negation for empty selections: a slice that selects no mixture is a set which can neither be
indexed nor sliced again, every key raises `ZeroDivisionError` (a list raises `IndexError` for an
index and returns an empty list for a slice without step). -/
theorem C45_empty_negation (m : MixSet α β) (h : m.cats = []) :
    (∀ key, m.getIdx key = .error .zeroDivision) ∧ (∀ s, m.getSlice s = .error .zeroDivision) ∧
    (∀ key, getInt ([] : List (α × List β)) key = .error .indexError) ∧
    ∀ a b, pySlice ⟨a, b, none⟩ ([] : List (α × List β)) = .ok [] := by
  have hn : m.ncpm = .error .zeroDivision := by
    unfold MixSet.ncpm
    rw [h]
    rfl
  refine ⟨fun key => ?_, fun s => ?_, fun key => ?_, fun a b => ?_⟩
  · unfold MixSet.getIdx
    rw [hn]
    rfl
  · unfold MixSet.getSlice
    rw [hn]
    rfl
  · unfold getInt
    rcases normIdx ([] : List (α × List β)).length key with _ | k <;> rfl
  · simp [pySlice, everyNth]

/-- The selection `mixtures[1:1]` followed by `[0:1]`. -/
example : (do
    let m ← (ofMixtures [("a", [1, 2]), ("b", [3, 4])]).getSlice ⟨some 1, some 1, none⟩
    m.getSlice ⟨some 0, some 1, none⟩) = .error .zeroDivision := by decide +kernel

/-- C45: iterating over a set of mixtures gives all its mixtures, each with its own weights and components, and stops; with no
mixture the iteration raises `ZeroDivisionError`. -/
theorem C45_iterate (C : ℕ) (hC : 0 < C) (l : List (α × List β)) (h : ∀ x ∈ l, x.2.length = C) :
    iterate (ofMixtures l).getIdx (l.length + 1) 0 =
      some (if l = [] then .error .zeroDivision else .ok l) := by
  by_cases hl : l = []
  · rw [if_pos hl]
    subst hl
    rfl
  rw [if_neg hl]
  have key : ∀ k i : ℕ, i + k = l.length →
      iterate (ofMixtures l).getIdx (k + 1) i = some (.ok (l.drop i)) := by
    intro k
    induction k with
    | zero =>
      intro i hi
      have e : (ofMixtures l).getIdx i = .error .indexError := by
        rw [C45_index_partial C hC l hl h i (by omega)]
        unfold getInt normIdx
        rw [if_pos (by omega), if_neg (by omega)]
      simp only [iterate, e]
      rw [List.drop_of_length_le (by omega)]
    | succ k ih =>
      intro i hi
      have hlt : i < l.length := by omega
      have e : (ofMixtures l).getIdx i = .ok l[i] := by
        rw [C45_index_partial C hC l hl h i (by omega)]
        unfold getInt normIdx
        rw [if_pos (by omega), if_pos (by omega)]
        simp [List.getElem?_eq_getElem hlt]
      have r := ih (i + 1) (by omega)
      rw [iterate]
      simp only [e, r]
      rw [← List.drop_eq_getElem_cons hlt]
  simpa using key l.length 0 (by omega)

example : iterate (ofMixtures [("a", [1, 2]), ("b", [3, 4])]).getIdx 3 0 = some (.ok [("a", [1, 2]), ("b", [3, 4])]) := by
  decide +kernel

end Verif.Props
