import Verif.Spec.Duration
import Verif.Lemmas.DecodeCmd
import Verif.Lemmas.GraphCompile
import Verif.Lemmas.Units
import Verif.Props.LoopGraph
import Mathlib.Tactic.FieldSimp

/-!
# Lemmas: compiling a row of states
-/

namespace Verif.Props

open Verif Verif.Spec Verif.DecodeCmd Verif.Graph Verif.Pipeline

variable {topo : List (Arc ℝ)} {k : ℕ} {a b : ℝ}

theorem row_emitting (topo : List (Arc ℝ)) (k first : ℕ) :
    (unitHmm topo (k + 3) first).emitting = (List.range (k + 1)).map (· + 1) := by
  unfold emitting unitHmm
  rw [List.filterMap_map, show k + 3 = (k + 2) + 1 from rfl, List.range_succ_eq_map, List.filterMap_cons, List.range_succ]
  simp only [List.map_append, List.filterMap_append, List.filterMap_map, List.map_cons, List.map_nil]
  have h1 : ∀ l : List ℕ, (∀ i ∈ l, i < k + 1) → List.filterMap ((((fun s : ℕ × Option ℕ => s.2.map fun _ => s.1) ∘
      fun i => (i, if i = 0 ∨ i = k + 2 + 1 - 1 then none else some (first + (i - 1)))) ∘ Nat.succ)) l = l.map (· + 1) := by
    intro l hl
    induction l with
    | nil => rfl
    | cons i l ih =>
      have := hl i List.mem_cons_self
      rw [List.filterMap_cons, ih (fun j hj => hl j (List.mem_cons_of_mem _ hj)), List.map_cons]
      have hno : ¬ (i.succ = 0 ∨ i.succ = k + 2 + 1 - 1) := by omega
      simp only [Function.comp_apply, if_neg hno, Option.map_some]
  rw [h1 _ (fun i hi => List.mem_range.1 hi)]
  simp

theorem row_index (topo : List (Arc ℝ)) (k first i : ℕ) (hi : i < k + 1) :
    (unitHmm topo (k + 3) first).stateIndex (i + 1) = i := by
  unfold stateIndex
  rw [row_emitting]
  have hl : i < ((List.range (k + 1)).map (· + 1)).length := by simpa using hi
  have hnd : ((List.range (k + 1)).map (· + 1)).Nodup := List.nodup_range.map (fun _ _ h => Nat.succ_injective h)
  have := hnd.idxOf_getElem i hl
  simpa using this

theorem row_inv (h : RowTopo topo k a b) (first : ℕ) : (unitHmm topo (k + 3) first).Inv := by
  obtain ⟨_, _, hu⟩ := wellFormed_unit _ (unitHmm_good topo (k + 3) first h.valid).1
  exact hu.inv

theorem row_closed (h : RowTopo topo k a b) (first : ℕ) : Closed (unitHmm topo (k + 3) first) :=
  (unitHmm_good topo (k + 3) first h.valid).1.arcs_closed

theorem row_same (h : RowTopo topo k a b) (x y : Arc ℝ) (hx : x ∈ topo) (hy : y ∈ topo) (h1 : x.start = y.start)
    (h2 : x.stop = y.stop) : x = y := by
  have := (row_inv h 0).keys_nodup
  exact List.inj_on_of_nodup_map this hx hy (Prod.ext h1 h2)

theorem row_no_last (h : RowTopo topo k a b) (x : Arc ℝ) (hx : x ∈ topo) : x.start < k + 2 := by
  obtain ⟨e, -, -, -, e3, e4⟩ := h.valid.exit
  by_contra hc
  have h1 := h.valid.below x hx
  have h2 := h.arcs x hx
  have := e4 x hx (by omega)
  subst this
  omega

theorem row_first (h : RowTopo topo k a b) : ∃ x ∈ topo, x.start = 0 ∧ x.stop = 1 ∧ ∀ y ∈ topo, y.start = 0 → y = x := by
  obtain ⟨x, x1, x2, x3, -, x4⟩ := h.valid.entry
  have := h.arcs x x1
  exact ⟨x, x1, x2, by omega, x4⟩

theorem row_final (h : RowTopo topo k a b) : ∃ x ∈ topo, x.stop = k + 2 ∧ x.start = k + 1 ∧ ∀ y ∈ topo, y.stop = k + 2 → y = x := by
  obtain ⟨x, x1, x2, x3, x5, x4⟩ := h.valid.exit
  have := h.arcs x x1
  exact ⟨x, x1, x2, by omega, x4⟩

theorem row_silent (topo : List (Arc ℝ)) (k first i : ℕ) (h : Silent (unitHmm topo (k + 3) first) i) : i = 0 ∨ i = k + 2 := by
  unfold Silent at h
  rw [unitHmm_state] at h
  obtain ⟨-, h⟩ := h
  by_contra hc
  rw [if_neg (by omega)] at h
  cases h

theorem row_emits (topo : List (Arc ℝ)) (k first i : ℕ) (h1 : 1 ≤ i) (h2 : i ≤ k + 1) : Emits (unitHmm topo (k + 3) first) i := by
  refine ⟨first + (i - 1), ?_⟩
  rw [unitHmm_state, if_neg (by omega)]
  exact ⟨by omega, rfl⟩

theorem row_unique (h : RowTopo topo k a b) (first : ℕ) : UniqueSilent (unitHmm topo (k + 3) first) := by
  have hnil : ∀ s e p, SilentPath (unitHmm topo (k + 3) first) e s p → p = [] := by
    intro s e p hp
    cases hp with
    | nil _ => rfl
    | step x q hx hs hq =>
      exfalso
      have h1 := row_no_last h x hx
      have h2 := row_silent _ _ _ _ hs
      obtain ⟨y, -, -, y2, y3⟩ := row_first h
      have := y3 x hx (by omega)
      subst this
      have h3 : Silent (unitHmm topo (k + 3) first) x.stop := by
        generalize x.stop = z at hq
        cases hq with
        | nil h => exact h
        | step _ _ _ h _ => exact h
      have := row_silent _ _ _ _ h3
      omega
  intro s e p q hp hq
  rw [hnil _ _ _ hp, hnil _ _ _ hq]

theorem row_eps (h : RowTopo topo k a b) (first i j : ℕ) (hi : 1 ≤ i) (hj : 1 ≤ j) (hj' : j ≤ k + 1) (p : List (Arc ℝ)) :
    EpsPath (unitHmm topo (k + 3) first) j i p ↔ ∃ x ∈ topo, x.start = i ∧ x.stop = j ∧ p = [x] := by
  constructor
  · intro hp
    cases hp with
    | last x hx hxe _ => exact ⟨x, hx, rfl, hxe, rfl⟩
    | step x q hx hs hq =>
      exfalso
      have h2 := row_silent _ _ _ _ hs
      have h3 := h.arcs x hx
      generalize hz : x.stop = z at hq
      cases hq with
      | last y hy _ _ =>
        have := row_no_last h y hy
        omega
      | step y _ hy _ _ =>
        have := row_no_last h y hy
        omega
  · rintro ⟨x, hx, rfl, h2, rfl⟩
    exact .last x hx h2 (row_emits _ _ _ _ hj hj')

theorem row_trans (h : RowTopo topo k a b) (first : ℕ) (t : ℕ → ℕ → ℝ) (ht : (unitHmm topo (k + 3) first).transRaw = .ok t)
    (i j : ℕ) (hi : i < k + 1) (hj : j < k + 1) : t i j = if j = i then a else if j = i + 1 then b else 0 := by
  obtain ⟨t', ht', ps, p1, p2, p3⟩ := transRaw_unique (unitHmm topo (k + 3) first) (row_inv h first) (row_unique h first)
    (row_closed h first) (i + 1) (j + 1) (row_emits _ _ _ _ (by omega) (by omega)) (row_emits _ _ _ _ (by omega) (by omega))
  rw [ht] at ht'
  cases Except.ok.inj ht'
  rw [row_index _ _ _ _ hi, row_index _ _ _ _ hj] at p3
  rw [p3]
  have hone : ∀ x ∈ topo, x.start = i + 1 → x.stop = j + 1 → (ps.map codeWeight).sum = x.weight := by
    intro x hx h1 h2
    have hperm : ps.Perm [[x]] := by
      refine (List.perm_ext_iff_of_nodup p1 (List.nodup_singleton _)).2 fun p => ?_
      rw [p2, row_eps h first (i + 1) (j + 1) (by omega) (by omega) (by omega), List.mem_singleton]
      constructor
      · rintro ⟨y, hy, y1, y2, rfl⟩
        rw [row_same h y x hy hx (y1.trans h1.symm) (y2.trans h2.symm)]
      · rintro rfl
        exact ⟨x, hx, h1, h2, rfl⟩
    rw [(hperm.map codeWeight).sum_eq]
    simp [codeWeight]
  split
  · obtain ⟨x, x1, x2, x3, x4⟩ := h.keep (i + 1) (by omega) (by omega)
    rw [hone x x1 x2 (by omega), x4]
  · split
    · obtain ⟨x, x1, x2, x3, x4⟩ := h.next (i + 1) (by omega) (by omega)
      rw [hone x x1 x2 (by omega), x4]
    · have : ps = [] := by
        refine List.eq_nil_iff_forall_not_mem.2 fun p hp => ?_
        rw [p2, row_eps h first (i + 1) (j + 1) (by omega) (by omega) (by omega)] at hp
        obtain ⟨x, hx, x1, x2, -⟩ := hp
        have := h.arcs x hx
        omega
      rw [this]
      rfl

/-- Dividing a vector with a single entry by its sum. -/
theorem single_normalised (g : Graph ℝ) (n i : ℕ) (w : ℝ) (hw : 0 < w) (s : ℕ) (hs : g.stateIndex s = i) (hi : i < n) :
    normalizeVec n (g.accumProbs (fun _ => 0) [(s, w)]) = some (fun j => if j = i then 1 else 0) := by
  have hv : g.accumProbs (fun _ => 0) [(s, w)] = fun j => if j = i then w else 0 := by
    funext j
    simp [accumProbs, hs]
  have hsum : ((List.range n).map (fun j => if j = i then w else 0)).sum = w := by
    rw [show ((List.range n).map (fun j => if j = i then w else 0)).sum
      = ∑ j ∈ Finset.range n, (if j = i then w else 0) from rfl]
    rw [Finset.sum_ite_eq' (Finset.range n) i (fun _ => w), if_pos (Finset.mem_range.2 hi)]
  unfold normalizeVec
  rw [hv]
  dsimp only
  rw [hsum, if_neg hw.ne']
  congr 1
  funext j
  split
  · exact div_self hw.ne'
  · exact zero_div w

/-- Normalising the rows. -/
theorem row_normalised (k i : ℕ) (hi : i < k + 1) (ha : 0 < a) (ha1 : a < 1) (hb : 0 < b) (r : ℕ → ℝ)
    (hr : ∀ j < k + 1, r j = if j = i then a else if j = i + 1 then b else 0) (j : ℕ) (hj : j < k + 1) :
    normalizeRow (k + 1) r i j = if j = i then a else if j = i + 1 then 1 - a else 0 := by
  have hd : r i = a := by rw [hr i hi, if_pos rfl]
  have hsum : ((List.range (k + 1)).map r).sum = a + if i + 1 < k + 1 then b else 0 := by
    rw [show ((List.range (k + 1)).map r).sum = ∑ j ∈ Finset.range (k + 1), r j from rfl]
    rw [Finset.sum_congr rfl (g := fun j => (if j = i then a else 0) + if j = i + 1 then b else 0) (by
      intro j hj
      rw [hr j (Finset.mem_range.1 hj)]
      by_cases h1 : j = i
      · rw [if_pos h1, if_pos h1, if_neg (by omega), add_zero]
      · rw [if_neg h1, if_neg h1, zero_add]), Finset.sum_add_distrib,
      Finset.sum_ite_eq' (Finset.range (k + 1)) i (fun _ => a), if_pos (Finset.mem_range.2 hi),
      Finset.sum_ite_eq' (Finset.range (k + 1)) (i + 1) (fun _ => b)]
    simp only [Finset.mem_range]
  unfold normalizeRow
  rw [hd, hsum, add_sub_cancel_left]
  by_cases hlast : i + 1 < k + 1
  · rw [if_pos hlast, if_pos ⟨ha, hb⟩]
    by_cases h1 : j = i
    · rw [if_pos h1, if_pos h1]
    · rw [if_neg h1, if_neg h1, hr j hj, if_neg h1]
      have : (1 : ℝ) - a ≠ 0 := by linarith
      split
      · field_simp
      · rw [zero_div]
  · rw [if_neg hlast, if_neg (by rintro ⟨-, h⟩; exact lt_irrefl _ h), hr j hj]
    by_cases h1 : j = i
    · rw [if_pos h1, if_pos h1]
    · rw [if_neg h1, if_neg h1, if_neg (by omega), if_neg (by omega)]

theorem row_pdfs (topo : List (Arc ℝ)) (k first : ℕ) : (unitHmm topo (k + 3) first).pdfMapping.length = k + 1 := by
  have h1 : (unitHmm topo (k + 3) first).pdfMapping.length = (unitHmm topo (k + 3) first).emitting.length := by
    unfold pdfMapping emitting
    induction (unitHmm topo (k + 3) first).states with
    | nil => rfl
    | cons s l ih =>
      obtain ⟨i, _ | p⟩ := s
      · simpa using ih
      · simpa using ih
  rw [h1, row_emitting]
  simp

theorem compile_pdfs (g : Graph ℝ) (c : Compiled ℝ) (h : g.compile = .ok c) : c.pdfMapping = g.pdfMapping := by
  unfold compile at h
  split at h
  · cases h
  · split at h
    · cases h
    · split at h
      · cases h
      · rw [← Except.ok.inj h]

/-- The compiled graph of a unit with its states in a row. -/
theorem row_compiled (h : RowTopo topo k a b) (ha : 0 < a) (ha1 : a < 1) (hb : 0 < b) (first : ℕ) :
    ∃ c g, (unitHmm topo (k + 3) first).compile = .ok c ∧ logGraph c = .ok g ∧ g.last = k ∧ Row g.graph a (1 - a) 1 := by
  obtain ⟨c, li, lf, t, hcomp, hli, hlf, ht, hi, hf, htr⟩ := compile_ok (unitHmm topo (k + 3) first) (row_closed h first)
  have hlen : (unitHmm topo (k + 3) first).emitting.length = k + 1 := by rw [row_emitting]; simp
  obtain ⟨en, en1, en2, en3, en4⟩ := row_first h
  obtain ⟨ex, ex1, ex2, ex3, ex4⟩ := row_final h
  have e1 := (findNext_single (unitHmm topo (k + 3) first) (row_inv h first) en en1 (first + (en.stop - 1)) (by
      rw [unitHmm_state, if_neg (by omega)]
      exact ⟨by omega, rfl⟩) (fun y hy hs => en4 y hy (hs.trans en2))).1
  have hr : (⟨ex.stop, ex.start, ex.weight⟩ : Arc ℝ) ∈ (unitHmm topo (k + 3) first).reversed.arcs :=
    List.mem_map.2 ⟨ex, ex1, rfl⟩
  have e2 := (findNext_single (unitHmm topo (k + 3) first).reversed (reversed_inv _ (row_inv h first))
    ⟨ex.stop, ex.start, ex.weight⟩ hr (first + (ex.start - 1)) (by
        show (ex.start, _) ∈ (unitHmm topo (k + 3) first).states
        rw [unitHmm_state, if_neg (by omega)]
        exact ⟨by omega, rfl⟩) (by
      intro y hy hys
      obtain ⟨z, hz, rfl⟩ := List.mem_map.1 hy
      dsimp only at hys
      rw [ex4 z hz (hys.trans ex2)])).1
  dsimp only at e2
  rw [show (unitHmm topo (k + 3) first).startState = some en.start by rw [en2]; rfl, e1] at hli
  rw [show (unitHmm topo (k + 3) first).endState = some ex.stop by rw [ex2]; rfl, e2] at hlf
  cases Except.ok.inj hli
  cases Except.ok.inj hlf
  rw [hlen, single_normalised _ (k + 1) 0 _ (by rw [one_mul]; exact h.valid.positive en en1) _
    (by rw [en3]; exact row_index _ _ _ 0 (by omega)) (by omega)] at hi
  rw [hlen, single_normalised _ (k + 1) k _ (by rw [one_mul]; exact h.valid.positive ex ex1) _
    (by rw [ex3]; exact row_index _ _ _ k (by omega)) (by omega)] at hf
  have hpm : c.pdfMapping.length = k + 1 := by
    rw [compile_pdfs _ _ hcomp]
    exact row_pdfs _ _ _
  have hne : c.pdfMapping ≠ [] := by
    intro h0
    rw [h0] at hpm
    cases hpm
  refine ⟨c, ⟨c.pdfMapping.length - 1, ⟨fun j => llog (if j.val = 0 then 1 else 0), fun j => llog (if j.val = k then 1 else 0),
    fun i j => llog (c.trans i j)⟩, fun j => c.pdfMapping.getD j 0⟩, hcomp, ?_, by simp only [hpm]; omega, ?_⟩
  · unfold logGraph
    rw [hi, hf]
    dsimp only
    rw [if_neg hne]
  · have hk : c.pdfMapping.length - 1 = k := by omega
    refine ⟨fun i => lexp_llog (by split <;> norm_num), fun i j => ?_, fun i => ?_⟩
    · have hi' : i.val < k + 1 := by have := i.2; dsimp only at this; omega
      have hj' : j.val < k + 1 := by have := j.2; dsimp only at this; omega
      have hv : c.trans i.val j.val = if j.val = i.val then a else if j.val = i.val + 1 then 1 - a else 0 := by
        rw [htr, hlen]
        exact row_normalised k i.val hi' ha ha1 hb _ (fun j hj => row_trans h first t ht i.val j hi' hj) j.val hj'
      dsimp only
      rw [lexp_llog (by rw [hv]; split <;> [exact ha.le; (split <;> [linarith; exact le_rfl])]), hv]
    · have hiff : ∀ x : ℕ, (if x = k then (1 : ℝ) else 0) = if x = c.pdfMapping.length - 1 then 1 else 0 := by
        intro x; rw [hk]
      exact (lexp_llog (by split <;> norm_num)).trans (hiff i.val)

end Verif.Props
