import Verif.Model.Features
import Verif.Lemmas.ExceptList
import Mathlib.Algebra.BigOperators.Field
import Mathlib.Algebra.BigOperators.Intervals
import Mathlib.Algebra.Order.BigOperators.Ring.Finset
import Mathlib.Algebra.Order.Field.Basic
import Mathlib.Algebra.Order.Ring.Rat
import Mathlib.Data.List.GetD
import Mathlib.Tactic.FieldSimp
import Mathlib.Tactic.Linarith
import Mathlib.Tactic.NormNum
import Mathlib.Tactic.Ring

/-!
# C58, C59: delta features
-/

namespace Verif.Spec

variable {K : Type} [Field K]

/-- `Σ_{m=1}^{w} m²`. -/
def sumSquares (w : ℕ) : K := ∑ j ∈ Finset.range w, ((j : K) + 1) ^ 2

/-- Weighted differences of the frames around `t`, the first and last frames being repeated outside of
the utterance. -/
def deltaAt (w : ℕ) (col : List K) (t : ℕ) : K :=
  (∑ j ∈ Finset.range w, ((j : K) + 1) *
    (col.getD (min (t + (j + 1)) (col.length - 1)) 0 - col.getD (t - (j + 1)) 0)) / (4 * sumSquares w)

/-- The column of deltas. -/
def deltaCol (w : ℕ) (col : List K) : List K := (List.range col.length).map (deltaAt w col)

/-- Features followed by deltas, deltas of deltas, etc. -/
def deltaBlocks : List ℕ → List (List K) → List (List K)
  | [], cols => cols
  | w :: ws, cols => cols ++ deltaBlocks ws (cols.map (deltaCol w))

end Verif.Spec

namespace Verif.Features

open Verif.Spec

variable {K : Type} [Field K] [LinearOrder K] [IsStrictOrderedRing K]

omit [LinearOrder K] [IsStrictOrderedRing K] in
theorem listsum_range (n : ℕ) (f : ℕ → K) :
    ((List.range n).map f).sum = ∑ k ∈ Finset.range n, f k := by
  induction n with
  | zero => rfl
  | succ n ih => rw [List.range_succ, List.map_append, List.sum_append, ih, Finset.sum_range_succ]; simp

omit [LinearOrder K] [IsStrictOrderedRing K] in
theorem sum_split (w : ℕ) (g : ℕ → K) : ∑ k ∈ Finset.range (2 * w + 1), g k
    = (∑ j ∈ Finset.range w, g (w - 1 - j)) + g w + ∑ j ∈ Finset.range w, g (w + 1 + j) := by
  rw [show 2 * w + 1 = (w + 1) + w by omega, Finset.sum_range_add, Finset.sum_range_succ,
    Finset.sum_range_reflect]

theorem sumSquares_pos (w : ℕ) (hw : 0 < w) : (0 : K) < sumSquares w := by
  unfold sumSquares
  apply Finset.sum_pos
  · intro j _; positivity
  · exact ⟨0, Finset.mem_range.mpr hw⟩

omit [LinearOrder K] [IsStrictOrderedRing K] in
theorem dot_eq (w : ℕ) : (((rawFilter w : List K)).map (fun x => x * x)).sum = 2 * sumSquares w := by
  unfold rawFilter
  rw [List.map_map, listsum_range, sum_split, two_mul]
  unfold sumSquares
  simp only [Function.comp, sub_self, neg_zero, mul_zero, add_zero]
  congr 1
  · refine Finset.sum_congr rfl (fun j hj => ?_)
    have hj' := Finset.mem_range.mp hj
    have : ((w - 1 - j : ℕ) : K) = (w : K) - 1 - j := by
      rw [Nat.sub_sub, Nat.cast_sub (by omega)]; push_cast; ring
    rw [this]; ring
  · refine Finset.sum_congr rfl (fun j _ => ?_)
    push_cast; ring

omit [LinearOrder K] [IsStrictOrderedRing K] in
theorem pad_getD (w : ℕ) (col : List K) (hne : col ≠ []) (i : ℕ) (hi : i < col.length + 2 * w) :
    (List.replicate w (col.head hne) ++ col ++ List.replicate w (col.getLast hne)).getD i 0
      = col.getD (min (i - w) (col.length - 1)) 0 := by
  have hpos : 0 < col.length := List.length_pos_iff.mpr hne
  rw [List.append_assoc]
  by_cases h1 : i < w
  · rw [List.getD_append _ _ _ _ (by simpa using h1)]
    rw [List.getD_eq_getElem _ _ (by simpa using h1), List.getElem_replicate]
    have : min (i - w) (col.length - 1) = 0 := by omega
    rw [this, List.getD_eq_getElem _ _ hpos, List.head_eq_getElem]
  · rw [List.getD_append_right _ _ _ _ (by simp; omega), List.length_replicate]
    by_cases h2 : i - w < col.length
    · rw [List.getD_append _ _ _ _ h2]
      have : min (i - w) (col.length - 1) = i - w := by omega
      rw [this]
    · rw [List.getD_append_right _ _ _ _ (by omega)]
      rw [List.getD_eq_getElem _ _ (by simp; omega), List.getElem_replicate]
      have : min (i - w) (col.length - 1) = col.length - 1 := by omega
      rw [this, List.getD_eq_getElem _ _ (by omega), List.getLast_eq_getElem]

omit [Field K] [LinearOrder K] [IsStrictOrderedRing K] in
theorem zipIdx_map_range (n : ℕ) (g : ℕ → K) :
    ((List.range n).map g).zipIdx = (List.range n).map (fun k => (g k, k)) := by
  apply List.ext_getElem
  · simp
  · intro i h1 h2
    simp

theorem delta_eq (w : ℕ) (hw : 0 < w) (col : List K) (hne : col ≠ []) :
    delta w col = .ok (deltaCol w col) := by
  have hS := sumSquares_pos (K := K) w hw
  have hf : deltaFilter w = .ok ((List.range (2 * w + 1)).map
      (fun k : ℕ => -((k : K) - (w : K)) / (4 * sumSquares w))) := by
    unfold deltaFilter
    dsimp only
    rw [dot_eq, if_neg (by positivity)]
    unfold rawFilter
    rw [List.map_map]
    congr 2
    funext k
    simp only [Function.comp]
    congr 1
    ring
  have hp : pad w col = .ok (List.replicate w (col.head hne) ++ col ++
      List.replicate w (col.getLast hne)) := by
    unfold pad
    rw [List.head?_eq_some_head hne, List.getLast?_eq_some_getLast hne]
  unfold delta
  rw [hf, hp]
  dsimp only
  congr 1
  unfold lfilter deltaCol
  apply List.ext_getElem
  · simp; omega
  · intro t h1 h2
    have ht : t < col.length := by simpa using h2
    simp only [List.getElem_drop, List.getElem_map, List.getElem_range]
    rw [zipIdx_map_range, List.map_map, listsum_range]
    have hterm : ∀ k ∈ Finset.range (2 * w + 1),
        ((fun p : K × ℕ => if p.2 ≤ 2 * w + t then p.1 * (List.replicate w (col.head hne) ++ col ++
          List.replicate w (col.getLast hne)).getD (2 * w + t - p.2) 0 else 0) ∘
          fun k : ℕ => (-((k : K) - (w : K)) / (4 * sumSquares w), k)) k
        = (((w : K) - k) * col.getD (min (2 * w + t - k - w) (col.length - 1)) 0) / (4 * sumSquares w) := by
      intro k hk
      have hk' := Finset.mem_range.mp hk
      simp only [Function.comp]
      rw [if_pos (by omega), pad_getD w col hne _ (by omega)]
      ring
    rw [Finset.sum_congr rfl hterm, ← Finset.sum_div, sum_split]
    unfold deltaAt
    congr 1
    simp only [sub_self, zero_mul, add_zero]
    rw [← Finset.sum_add_distrib]
    refine Finset.sum_congr rfl (fun j hj => ?_)
    have hj' := Finset.mem_range.mp hj
    have c1 : ((w - 1 - j : ℕ) : K) = (w : K) - 1 - j := by
      rw [Nat.sub_sub, Nat.cast_sub (by omega)]; push_cast; ring
    have e1 : min (2 * w + t - (w - 1 - j) - w) (col.length - 1) = min (t + (j + 1)) (col.length - 1) := by
      congr 1; omega
    have e2 : min (2 * w + t - (w + 1 + j) - w) (col.length - 1) = t - (j + 1) := by omega
    rw [c1, e1, e2]
    push_cast
    ring

omit [LinearOrder K] [IsStrictOrderedRing K] in
theorem deltaCol_length (w : ℕ) (col : List K) : (deltaCol w col).length = col.length := by
  simp [deltaCol]

theorem deltasLoop_eq : ∀ (ws : List ℕ), (∀ w ∈ ws, 0 < w) → ∀ (cols acc : List (List K)),
    (∀ c ∈ cols, c ≠ []) →
    deltasLoop ws cols (acc ++ cols) = .ok (acc ++ deltaBlocks ws cols) := by
  intro ws
  induction ws with
  | nil => intro _ cols acc _; rfl
  | cons w ws ih =>
    intro hw cols acc hc
    rw [deltasLoop, mapM_ok_map (delta w) (deltaCol w) cols
      (fun c h => delta_eq w (hw w (by simp)) c (hc c h))]
    dsimp only
    rw [ih (fun w' h => hw w' (by simp [h])) _ (acc ++ cols) ?_, deltaBlocks, List.append_assoc]
    intro c h
    obtain ⟨c', h', rfl⟩ := List.mem_map.mp h
    intro h0
    have := congrArg List.length h0
    rw [deltaCol_length] at this
    exact hc c' h' (List.length_eq_zero_iff.mp this)

end Verif.Features

namespace Verif.Props

open Verif.Features Verif.Spec

variable {K : Type} [Field K] [LinearOrder K] [IsStrictOrderedRing K]

/-! ## C58 -/

/-- The result is the features followed by the (iterated) deltas, and each delta is the weighted
difference of the frames around. -/
theorem C58_blocks (ws : List ℕ) (hw : ∀ w ∈ ws, 0 < w) (cols : List (List K)) (hc : ∀ c ∈ cols, c ≠ []) :
    addDeltas ws cols = .ok (deltaBlocks ws cols) := by
  have := deltasLoop_eq ws hw cols [] hc
  simpa [addDeltas] using this

/-- Shape: number of columns, number of frames, original features first. -/
theorem C58_shape (ws : List ℕ) (hw : ∀ w ∈ ws, 0 < w) (cols : List (List K)) (n : ℕ) (hn : 0 < n)
    (hc : ∀ c ∈ cols, c.length = n) :
    ∃ out, addDeltas ws cols = .ok out ∧ out.length = cols.length * (1 + ws.length) ∧
      (∀ c ∈ out, c.length = n) ∧ out.take cols.length = cols := by
  refine ⟨deltaBlocks ws cols, C58_blocks ws hw cols ?_, ?_⟩
  · intro c h h0
    have := hc c h
    rw [h0] at this
    simp at this; omega
  · clear hw
    induction ws generalizing cols with
    | nil => exact ⟨by simp [deltaBlocks], hc, by simp [deltaBlocks]⟩
    | cons w ws ih =>
      have hc' : ∀ c ∈ cols.map (deltaCol w), c.length = n := by
        intro c h
        obtain ⟨c', h', rfl⟩ := List.mem_map.mp h
        rw [deltaCol_length]; exact hc c' h'
      obtain ⟨h1, h2, _⟩ := ih _ hc'
      refine ⟨?_, ?_, ?_⟩
      · rw [deltaBlocks, List.length_append, h1, List.length_map, List.length_cons]; ring
      · intro c h
        rw [deltaBlocks, List.mem_append] at h
        exact h.elim (hc c) (h2 c)
      · rw [deltaBlocks]; simp

example : addDeltas [1] [([0, 2, 6] : List ℚ)] = .ok [[0, 2, 6], [1/2, 3/2, 1]] := by decide +kernel

/-- A constant feature has zero deltas of all orders. -/
theorem C58_constant (ws : List ℕ) (hw : ∀ w ∈ ws, 0 < w) (n : ℕ) (hn : 0 < n) (c : K) :
    addDeltas ws [List.replicate n c] = .ok (List.replicate n c :: List.replicate ws.length (List.replicate n 0)) := by
  rw [C58_blocks ws hw _ (by
    intro l h
    obtain rfl := List.mem_singleton.mp h
    intro h0
    have := congrArg List.length h0
    simp at this; omega)]
  congr 1
  clear hw
  have hd : ∀ (w : ℕ) (c : K), deltaCol w (List.replicate n c) = List.replicate n 0 := by
    intro w c
    apply List.ext_getElem
    · simp [deltaCol]
    · intro t h1 h2
      have ht : t < n := by simpa using h2
      simp only [deltaCol, List.getElem_map, List.getElem_range, List.getElem_replicate]
      unfold deltaAt
      rw [Finset.sum_eq_zero, zero_div]
      intro j _
      rw [List.length_replicate, List.getD_eq_getElem _ _ (by simp; omega),
        List.getD_eq_getElem _ _ (by simp; omega), List.getElem_replicate, List.getElem_replicate,
        sub_self, mul_zero]
  have hz : ∀ (ws : List ℕ) (c : K), deltaBlocks ws [List.replicate n c]
      = List.replicate n c :: List.replicate ws.length (List.replicate n 0) := by
    intro ws
    induction ws with
    | nil => intro c; rfl
    | cons w ws ih =>
      intro c
      rw [deltaBlocks, List.map_singleton, hd, ih 0, List.length_cons, List.replicate_succ]
      rfl
  exact hz ws c

example : addDeltas [2, 2] [([7, 7, 7] : List ℚ)] = .ok [[7, 7, 7], [0, 0, 0], [0, 0, 0]] := by decide +kernel

/-- Linear combination of two matrices. -/
def combine (a b : K) (x y : List (List K)) : List (List K) :=
  List.zipWith (List.zipWith (fun u v => a * u + b * v)) x y

omit [LinearOrder K] [IsStrictOrderedRing K] in
theorem zipWith_getD_lin (a b : K) (x y : List K) (h : x.length = y.length) (i : ℕ) :
    (List.zipWith (fun u v => a * u + b * v) x y).getD i 0 = a * x.getD i 0 + b * y.getD i 0 := by
  by_cases hi : i < x.length
  · rw [List.getD_eq_getElem _ _ (by simp; omega), List.getElem_zipWith, List.getD_eq_getElem _ _ hi,
      List.getD_eq_getElem _ _ (by omega)]
  · rw [List.getD_eq_default _ _ (by simp; omega), List.getD_eq_default _ _ (by omega),
      List.getD_eq_default _ _ (by omega)]
    ring

omit [LinearOrder K] [IsStrictOrderedRing K] in
theorem deltaCol_linear (w : ℕ) (a b : K) (x y : List K) (h : x.length = y.length) :
    deltaCol w (List.zipWith (fun u v => a * u + b * v) x y)
      = List.zipWith (fun u v => a * u + b * v) (deltaCol w x) (deltaCol w y) := by
  apply List.ext_getElem
  · simp [deltaCol]
  · intro t h1 h2
    have hlen : (List.zipWith (fun u v => a * u + b * v) x y).length = x.length := by simp [h]
    simp only [deltaCol, List.getElem_map, List.getElem_range, List.getElem_zipWith]
    unfold deltaAt
    rw [hlen, ← h, ← mul_div_assoc, ← mul_div_assoc, ← add_div, Finset.mul_sum, Finset.mul_sum,
      ← Finset.sum_add_distrib]
    congr 1
    refine Finset.sum_congr rfl (fun j _ => ?_)
    rw [zipWith_getD_lin a b x y h, zipWith_getD_lin a b x y h]
    ring

/-- Adding deltas is linear in the features. -/
theorem C58_linear (ws : List ℕ) (hw : ∀ w ∈ ws, 0 < w) (a b : K) (x y : List (List K)) (n : ℕ) (hn : 0 < n)
    (hxy : x.length = y.length) (hx : ∀ c ∈ x, c.length = n) (hy : ∀ c ∈ y, c.length = n) :
    ∃ dx dy, addDeltas ws x = .ok dx ∧ addDeltas ws y = .ok dy ∧
      addDeltas ws (combine a b x y) = .ok (combine a b dx dy) := by
  have hne : ∀ (z : List (List K)), (∀ c ∈ z, c.length = n) → ∀ c ∈ z, c ≠ [] := by
    intro z hz c h h0
    have := hz c h
    rw [h0] at this
    simp at this; omega
  have hcomb : ∀ (x y : List (List K)), (∀ c ∈ x, c.length = n) → (∀ c ∈ y, c.length = n) →
      ∀ c ∈ combine a b x y, c.length = n := by
    intro x y hx hy c hc
    unfold combine at hc
    rw [List.mem_iff_getElem] at hc
    obtain ⟨i, hi, rfl⟩ := hc
    rw [List.getElem_zipWith, List.length_zipWith, hx _ (List.getElem_mem _), hy _ (List.getElem_mem _),
      min_self]
  refine ⟨_, _, C58_blocks ws hw x (hne x hx), C58_blocks ws hw y (hne y hy), ?_⟩
  rw [C58_blocks ws hw _ (hne _ (hcomb x y hx hy))]
  congr 1
  clear hw
  induction ws generalizing x y with
  | nil => rfl
  | cons w ws ih =>
    have hmap : ∀ (z : List (List K)), (∀ c ∈ z, c.length = n) → ∀ c ∈ z.map (deltaCol w), c.length = n := by
      intro z hz c h
      obtain ⟨c', h', rfl⟩ := List.mem_map.mp h
      rw [deltaCol_length]; exact hz c' h'
    have hm : (combine a b x y).map (deltaCol w) = combine a b (x.map (deltaCol w)) (y.map (deltaCol w)) := by
      unfold combine
      apply List.ext_getElem
      · simp
      · intro i h1 h2
        simp only [List.getElem_map, List.getElem_zipWith]
        apply deltaCol_linear
        rw [hx _ (List.getElem_mem _), hy _ (List.getElem_mem _)]
    rw [deltaBlocks, deltaBlocks, deltaBlocks, hm,
      ih (x.map (deltaCol w)) (y.map (deltaCol w)) (by simp [hxy]) (hmap x hx) (hmap y hy)]
    unfold combine
    rw [List.zipWith_append hxy]

example : combine (2 : ℚ) 1 [[1, 2]] [[5, 5]] = [[7, 9]] := by decide +kernel

/-- Error branches: an empty window (numpy yields NaN), an empty feature matrix. -/
theorem C58_errors (w : ℕ) (ws : List ℕ) (col : List K) :
    addDeltas (0 :: ws) [col] = .error .valueError ∧
    (0 < w → addDeltas (w :: ws) [([] : List K)] = .error .indexError) := by
  constructor
  · have : delta 0 col = .error .valueError := by
      unfold delta deltaFilter
      simp [rawFilter]
    rw [addDeltas, deltasLoop, mapM_cons_eq, this]
  · intro hw
    have : delta w ([] : List K) = .error .indexError := by
      have hS := sumSquares_pos (K := K) w hw
      unfold delta deltaFilter
      dsimp only
      rw [dot_eq, if_neg (by positivity)]
      rfl
    rw [addDeltas, deltasLoop, mapM_cons_eq, this]

/-! ## C59 -/

/-- On a feature growing by `c` per frame the delta away from the edges is *half* of the slope. The
property (delta equal to the slope) fails for every non-zero slope, see `C59_not_slope`. -/
theorem C59_half_slope_partial (w : ℕ) (hw : 0 < w) (n : ℕ) (a c : K) (t : ℕ) (h1 : w ≤ t) (h2 : t + w < n) :
    ∃ out, delta w ((List.range n).map (fun i : ℕ => a + c * i)) = .ok out ∧ out[t]? = some (c / 2) := by
  have hS := sumSquares_pos (K := K) w hw
  refine ⟨_, delta_eq w hw _ (by
    intro h0
    have := congrArg List.length h0
    simp at this; omega), ?_⟩
  have ht : t < n := by omega
  simp only [deltaCol, List.length_map, List.length_range, List.getElem?_map, List.getElem?_range ht,
    Option.map_some, Option.some.injEq]
  have hget : ∀ i, i < n → ((List.range n).map (fun i : ℕ => a + c * (i : K))).getD i 0 = a + c * i := by
    intro i hi
    rw [List.getD_eq_getElem _ _ (by simpa using hi), List.getElem_map, List.getElem_range]
  unfold deltaAt
  rw [List.length_map, List.length_range]
  have : ∀ j ∈ Finset.range w, ((j : K) + 1) *
      (((List.range n).map (fun i : ℕ => a + c * (i : K))).getD (min (t + (j + 1)) (n - 1)) 0
        - ((List.range n).map (fun i : ℕ => a + c * (i : K))).getD (t - (j + 1)) 0)
      = 2 * c * ((j : K) + 1) ^ 2 := by
    intro j hj
    have hj' := Finset.mem_range.mp hj
    rw [hget _ (by omega), hget _ (by omega), min_eq_left (by omega)]
    rw [Nat.cast_sub (by omega)]
    push_cast
    ring
  rw [Finset.sum_congr rfl this, ← Finset.mul_sum]
  change 2 * c * sumSquares w / (4 * sumSquares w) = c / 2
  field_simp
  ring

theorem C59_not_slope (w : ℕ) (hw : 0 < w) (n : ℕ) (a c : K) (hc : c ≠ 0) (t : ℕ) (h1 : w ≤ t)
    (h2 : t + w < n) (out : List K)
    (h : delta w ((List.range n).map (fun i : ℕ => a + c * i)) = .ok out) : out[t]? ≠ some c := by
  obtain ⟨out', ho, hv⟩ := C59_half_slope_partial w hw n a c t h1 h2
  rw [h] at ho
  obtain rfl := Except.ok.inj ho
  rw [hv]
  intro h'
  have := Option.some.inj h'
  have : c = 0 := by linarith
  exact hc this

example : delta 2 ([0, 1, 2, 3, 4, 5] : List ℚ) = .ok [1/4, 2/5, 1/2, 1/2, 2/5, 1/4] := by decide +kernel

end Verif.Props
