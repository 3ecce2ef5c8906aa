import Verif.Lemmas.GraphCompile
import Mathlib.Tactic.NormNum
import Mathlib.Tactic.Linarith
import Mathlib.Algebra.BigOperators.Ring.List
import Mathlib.Algebra.Order.Ring.Rat

/-!
# Properties C05, C06, C07, C75: compilation of graphs
-/

namespace Verif.Props

open Verif Verif.Graph Verif.Spec

/-! ## C05 -/

section C05

variable {F : Type} [Field F] [LinearOrder F] [IsStrictOrderedRing F]

/-- **C05 (partial, positive weights).** A well-formed graph with positive weights compiles; if an
emitting state can be reached from the start state, the initial probabilities are a distribution, and
if the end state can be reached from an emitting state the final probabilities are one.  The full claim
(non-negative weights, some path of positive weight) is false: see `C05_zero_weight_arc`. -/
theorem C05_distributions_partial (g : Graph F) (hg : g.Inv) (hc : Closed g) (s e : ℕ)
    (hs : g.startState = some s) (he : g.endState = some e)
    (hw : ∀ a ∈ g.arcs, 0 < a.weight) :
    ∃ c, g.compile = .ok c
      ∧ ((∃ x p, EpsPath g x s p) → ∃ v, c.init = some v ∧ IsDistribution g.emitting.length v)
      ∧ ((∃ x p, EpsPathTo g x e p) → ∃ v, c.final = some v ∧ IsDistribution g.emitting.length v) := by
  obtain ⟨c, li, lf, t, hcomp, hli, hlf, _, hi, hf, _⟩ := compile_ok g hc
  rw [hs] at hli
  rw [he] at hlf
  have hwr : ∀ a ∈ g.reversed.arcs, 0 < a.weight := by
    intro a ha
    obtain ⟨b, hb, rfl⟩ := List.mem_map.1 ha
    exact hw b hb
  refine ⟨c, hcomp, ?_, ?_⟩
  · rintro ⟨x, p, hp⟩
    obtain ⟨v, hv⟩ := normalize_some g hg s x p hw li hli hp
    exact ⟨v, hi.trans hv, normalize_dist g hg s (fun a ha => (hw a ha).le) li hli v hv⟩
  · rintro ⟨x, p, hp⟩
    obtain ⟨p', hp'⟩ := reversed_path g x e p hp
    obtain ⟨v, hv⟩ := normalize_some g.reversed (reversed_inv g hg) e x p' hwr lf hlf hp'
    exact ⟨v, hf.trans hv,
      normalize_dist g.reversed (reversed_inv g hg) e (fun a ha => (hwr a ha).le) lf hlf v hv⟩

/-- **C05 (partial, non-negative weights).** With non-negative weights the compiled initial and final
vectors are distributions or not defined at all (NaN). -/
theorem C05_distribution_or_nan_partial (g : Graph F) (hg : g.Inv) (hc : Closed g) (s e : ℕ)
    (hs : g.startState = some s) (he : g.endState = some e)
    (hw : ∀ a ∈ g.arcs, 0 ≤ a.weight) :
    ∃ c, g.compile = .ok c
      ∧ (∀ v, c.init = some v → IsDistribution g.emitting.length v)
      ∧ (∀ v, c.final = some v → IsDistribution g.emitting.length v) := by
  obtain ⟨c, li, lf, t, hcomp, hli, hlf, _, hi, hf, _⟩ := compile_ok g hc
  rw [hs] at hli
  rw [he] at hlf
  refine ⟨c, hcomp, ?_, ?_⟩
  · intro v hv
    exact normalize_dist g hg s hw li hli v (hi ▸ hv)
  · intro v hv
    refine normalize_dist g.reversed (reversed_inv g hg) e ?_ lf hlf v (hf ▸ hv)
    intro a ha
    obtain ⟨b, hb, rfl⟩ := List.mem_map.1 ha
    exact hw b hb

end C05

/-- A unit with one emitting state: `0 → 1 → 2` with a self-loop on 1. -/
def unitGraph : Graph ℚ :=
  ⟨3, [(0, none), (1, some 0), (2, none)], [⟨0, 1, 1⟩, ⟨1, 1, 1/2⟩, ⟨1, 2, 1/2⟩], some 0, some 2⟩

example : ∃ c, unitGraph.compile = .ok c
    ∧ (∃ v, c.init = some v ∧ IsDistribution unitGraph.emitting.length v)
    ∧ (∃ v, c.final = some v ∧ IsDistribution unitGraph.emitting.length v) := by
  obtain ⟨c, h, h1, h2⟩ := C05_distributions_partial unitGraph
    ⟨by decide +kernel, by decide +kernel, by decide +kernel⟩ (by unfold Closed; decide +kernel) 0 2
    rfl rfl (by decide +kernel)
  refine ⟨c, h, h1 ⟨1, [⟨0, 1, 1⟩], .last ⟨0, 1, 1⟩ (by decide +kernel) rfl ⟨0, by decide +kernel⟩⟩,
    h2 ⟨1, [⟨1, 2, 1/2⟩], .first ⟨1, 2, 1/2⟩ (by decide +kernel) rfl ⟨0, by decide +kernel⟩⟩⟩

/-- From state 1 there are two ways to the non-emitting state 2: directly with weight zero, or through
state 5 with weight one. -/
def zeroArcGraph : Graph ℚ :=
  ⟨6, [(0, none), (1, none), (2, none), (3, some 0), (4, none), (5, none)],
    [⟨0, 1, 1⟩, ⟨1, 5, 1⟩, ⟨1, 2, 0⟩, ⟨5, 2, 1⟩, ⟨2, 3, 1⟩, ⟨3, 4, 1⟩], some 0, some 4⟩

/-- **C05 (negation of the claim for non-negative weights).** A path of weight one leads from the start
state to an emitting state, but the search visits state 2 through the arc of weight zero first and
drops the other path: the initial probabilities are `0/0`. -/
theorem C05_zero_weight_arc :
    (∀ a ∈ zeroArcGraph.arcs, 0 ≤ a.weight)
    ∧ (∃ p, EpsPath zeroArcGraph 3 0 p ∧ arcsWeight p = 1)
    ∧ ∃ c, zeroArcGraph.compile = .ok c ∧ c.init = none := by
  refine ⟨by decide +kernel,
    ⟨[⟨0, 1, 1⟩, ⟨1, 5, 1⟩, ⟨5, 2, 1⟩, ⟨2, 3, 1⟩], ?_, by simp [arcsWeight]⟩, ?_⟩
  · refine .step ⟨0, 1, 1⟩ _ (by decide +kernel) (by unfold Silent; decide +kernel) ?_
    refine .step ⟨1, 5, 1⟩ _ (by decide +kernel) (by unfold Silent; decide +kernel) ?_
    refine .step ⟨5, 2, 1⟩ _ (by decide +kernel) (by unfold Silent; decide +kernel) ?_
    exact .last ⟨2, 3, 1⟩ (by decide +kernel) rfl ⟨0, by decide +kernel⟩
  · obtain ⟨c, li, lf, t, hcomp, hli, hlf, _, hi, hf, _⟩ := compile_ok zeroArcGraph (by
      unfold Closed; decide +kernel)
    refine ⟨c, hcomp, ?_⟩
    rw [hi]
    have h : zeroArcGraph.findNext zeroArcGraph.startState 1 = .ok [(3, 0)] := by
      decide +kernel
    rw [h] at hli
    cases hli
    decide +kernel

/-! ## C06 -/

section C06

variable {F : Type} [Field F] [LinearOrder F] [IsStrictOrderedRing F]

/-- **C06.** A row with self-loop probability `0 < d < 1`, non-negative entries and some positive weight
to another state is compiled to a distribution with the same self-loop probability and the same
ratios between the other transitions. -/
theorem C06_row_normalised (n dim : ℕ) (row : ℕ → F) (hd : dim < n) (h0 : 0 < row dim)
    (h1 : row dim < 1) (hnn : ∀ k < n, 0 ≤ row k) (j : ℕ) (hj : j < n) (hjd : j ≠ dim)
    (hpos : 0 < row j) :
    normalizeRow n row dim dim = row dim
    ∧ IsDistribution n (normalizeRow n row dim)
    ∧ ∀ i k, i ≠ dim → k ≠ dim →
        normalizeRow n row dim i * row k = normalizeRow n row dim k * row i := by
  have hsplit := sum_split n dim hd row
  have hoff : 0 < ((List.range n).map (fun k => if k = dim then 0 else row k)).sum := by
    have hge : ∀ x ∈ (List.range n).map (fun k => if k = dim then 0 else row k), (0 : F) ≤ x := by
      intro x hx
      obtain ⟨k, hk, rfl⟩ := List.mem_map.1 hx
      split
      · exact le_rfl
      · exact hnn k (List.mem_range.1 hk)
    have hm : row j ∈ (List.range n).map (fun k => if k = dim then 0 else row k) :=
      List.mem_map.2 ⟨j, List.mem_range.2 hj, by rw [if_neg hjd]⟩
    exact lt_of_lt_of_le hpos (List.single_le_sum hge _ hm)
  have hoff' : ((List.range n).map row).sum - row dim
      = ((List.range n).map (fun k => if k = dim then 0 else row k)).sum := by
    rw [hsplit]; ring
  set off := ((List.range n).map (fun k => if k = dim then 0 else row k)).sum with hoffdef
  have hval : normalizeRow n row dim
      = fun k => if k = dim then row dim else row k / (off / (1 - row dim)) := by
    unfold normalizeRow
    dsimp only
    rw [hoff', if_pos ⟨h0, hoff⟩]
  have h1' : (0 : F) < 1 - row dim := by linarith
  have hne : off / (1 - row dim) ≠ 0 := (div_pos hoff h1').ne'
  rw [hval]
  refine ⟨by simp, ⟨?_, ?_⟩, ?_⟩
  · intro k hk
    change 0 ≤ if k = dim then row dim else row k / (off / (1 - row dim))
    split
    · exact h0.le
    · exact div_nonneg (hnn k hk) (div_pos hoff h1').le
  · rw [sum_split n dim hd]
    simp only [if_true]
    have : (fun k => if k = dim then (0 : F) else if k = dim then row dim
          else row k / (off / (1 - row dim)))
        = fun k => (if k = dim then 0 else row k) / (off / (1 - row dim)) := by
      funext k
      by_cases hk : k = dim <;> simp [hk]
    rw [this, sum_div, ← hoffdef]
    have hne' : off ≠ 0 := hoff.ne'
    have hne2 : 1 - row dim ≠ 0 := h1'.ne'
    field_simp
    ring
  · intro i k hi hk
    simp only [hi, hk, if_false]
    ring

/-- **C06 (other rows).** A row without self-loop, or without other transitions, is left unchanged. -/
theorem C06_other_rows_unchanged (n dim : ℕ) (row : ℕ → F)
    (h : row dim ≤ 0 ∨ ((List.range n).map row).sum ≤ row dim) :
    normalizeRow n row dim = row := by
  unfold normalizeRow
  dsimp only
  rw [if_neg]
  rintro ⟨h1, h2⟩
  rcases h with h | h
  · exact absurd h1 (not_lt.2 h)
  · linarith

/-- **C06 (self-loop weights of at least one).** For a self-loop weight of exactly one the transitions
to the other states are erased, and for a larger one they become negative. -/
theorem C06_self_loop_too_large (n dim : ℕ) (row : ℕ → F) (k : ℕ) (hk : k ≠ dim)
    (hoff : row dim < ((List.range n).map row).sum) (hpos : 0 < row k) :
    (row dim = 1 → normalizeRow n row dim k = 0)
    ∧ (1 < row dim → normalizeRow n row dim k < 0) := by
  have hoff' : 0 < ((List.range n).map row).sum - row dim := by linarith
  constructor
  · intro h
    unfold normalizeRow
    rw [if_pos ⟨by rw [h]; exact zero_lt_one, hoff'⟩, if_neg hk, h]
    simp
  · intro h
    unfold normalizeRow
    rw [if_pos ⟨by linarith, hoff'⟩, if_neg hk]
    have h1 : (1 : F) - row dim < 0 := by linarith
    exact div_neg_of_pos_of_neg hpos (div_neg_of_pos_of_neg hoff' h1)

end C06

/-- The row `(1/2, 1, 3)` becomes `(1/2, 1/8, 3/8)`. -/
example : normalizeRow 3 (fun k => if k = 0 then (1/2 : ℚ) else if k = 1 then 1 else 3) 0 2 = 3/8 := by
  decide +kernel
example : normalizeRow 3 (fun k => if k = 0 then (1/2 : ℚ) else if k = 1 then 1 else 3) 0 0 = 1/2 :=
  (C06_row_normalised 3 0 _ (by decide) (by norm_num) (by norm_num)
    (by intro k _; split <;> [norm_num; (split <;> norm_num)]) 1 (by decide) (by decide)
    (by norm_num)).1
/-- A self-loop of weight two next to an arc of weight one: a negative probability. -/
example : normalizeRow 2 (fun k => if k = 0 then (2 : ℚ) else 1) 0 1 = -1 := by decide +kernel

/-! ## C07 -/

section C07

variable {F : Type} [Field F]

/-- What the compiled weight of a path is: for `a₀ a₁ … aₙ` with `n ≥ 1` it is `a₀ a₂ … aₙ aₙ`. -/
theorem C07_weight_of_path_partial (a b : Arc F) (q : List (Arc F)) :
    codeWeight [a] = a.weight
    ∧ codeWeight (a :: b :: q)
        = a.weight * (q.map Arc.weight).prod * ((b :: q).getLast (by simp)).weight :=
  ⟨rfl, compVal_eq b a.weight q⟩

/-- **C07 (partial).** If there is at most one path through non-emitting states between any two
non-emitting states, and on every path between emitting states the arc after the first one and the
last one have the same weight, then the transition weight (before the normalisation of C06) between two
emitting states is the sum over all the paths through non-emitting states of the product of their
weights. Both hypotheses are needed: `C07_first_weight_lost`, `C07_second_path_lost`. -/
theorem C07_sum_over_paths_partial (g : Graph F) (hg : g.Inv) (hc : Closed g) (hu : UniqueSilent g)
    (hw : ∀ e s a b q, EpsPath g e s (a :: b :: q) →
      b.weight = ((b :: q).getLast (by simp)).weight)
    (e1 e2 : ℕ) (h1 : Emits g e1) (h2 : Emits g e2) :
    ∃ t, g.transRaw = .ok t ∧ ∃ ps : List (List (Arc F)), ps.Nodup
      ∧ (∀ p, p ∈ ps ↔ EpsPath g e2 e1 p)
      ∧ t (g.stateIndex e1) (g.stateIndex e2) = (ps.map arcsWeight).sum := by
  obtain ⟨t, ht, ps, a1, a2, a3⟩ := transRaw_unique g hg hu hc e1 e2 h1 h2
  refine ⟨t, ht, ps, a1, a2, ?_⟩
  rw [a3]
  congr 1
  apply List.map_congr_left
  intro p hp
  have hpath := (a2 p).1 hp
  match p, hpath with
  | [], hpath => exact (EpsPath.not_nil g _ _ hpath).elim
  | [a], _ => simp [codeWeight, arcsWeight]
  | a :: b :: q, hpath =>
    rw [codeWeight, compVal_eq, ← hw _ _ _ _ _ hpath, arcsWeight, List.map_cons, List.map_cons,
      List.prod_cons, List.prod_cons]
    ring

/-- **C07 (partial, no chains of non-emitting states).** If no arc connects two non-emitting states the
claim holds. -/
theorem C07_no_chain_partial (g : Graph F) (hg : g.Inv) (hc : Closed g)
    (hn : ∀ a ∈ g.arcs, ¬ (Silent g a.start ∧ Silent g a.stop))
    (e1 e2 : ℕ) (h1 : Emits g e1) (h2 : Emits g e2) :
    ∃ t, g.transRaw = .ok t ∧ ∃ ps : List (List (Arc F)), ps.Nodup
      ∧ (∀ p, p ∈ ps ↔ EpsPath g e2 e1 p)
      ∧ t (g.stateIndex e1) (g.stateIndex e2) = (ps.map arcsWeight).sum := by
  have hsil : ∀ e s p, SilentPath g e s p → p = [] := by
    intro e s p h
    cases h with
    | nil => rfl
    | step a p ha hs h =>
      exfalso
      generalize hx : a.stop = x at h
      cases h with
      | nil h => exact hn a ha ⟨hs, hx ▸ h⟩
      | step b p hb hs' _ => exact hn a ha ⟨hs, hx ▸ hs'⟩
  refine C07_sum_over_paths_partial g hg hc ?_ ?_ e1 e2 h1 h2
  · intro s e p q hp hq
    rw [hsil _ _ _ hp, hsil _ _ _ hq]
  · intro e s a b q h
    obtain ⟨_, _, ⟨h, _⟩ | ⟨hsa, h⟩⟩ := EpsPath.inv g e s a _ h
    · cases h
    · obtain ⟨hbs, hb, ⟨h', _⟩ | ⟨hsb, _⟩⟩ := EpsPath.inv g e _ b _ h
      · subst h'; rfl
      · exact (hn b hb ⟨hbs ▸ hsa, hsb⟩).elim

end C07

/-- Two paths from state 0 to state 3, one direct and one through the non-emitting state 1. -/
def twoPaths : Graph ℚ :=
  ⟨4, [(0, some 0), (1, none), (3, some 1)], [⟨0, 1, 1/2⟩, ⟨0, 3, 1/4⟩, ⟨1, 3, 1/3⟩], some 0, some 3⟩

example : ∃ t, twoPaths.transRaw = .ok t ∧ ∃ ps : List (List (Arc ℚ)), ps.Nodup
      ∧ (∀ p, p ∈ ps ↔ EpsPath twoPaths 3 0 p)
      ∧ t (twoPaths.stateIndex 0) (twoPaths.stateIndex 3) = (ps.map arcsWeight).sum :=
  C07_no_chain_partial twoPaths ⟨by decide +kernel, by decide +kernel, by decide +kernel⟩
    (by unfold Closed; decide +kernel) (by unfold Silent; decide +kernel) 0 3 ⟨0, by decide +kernel⟩
    ⟨1, by decide +kernel⟩
example : (twoPaths.transRaw).map (fun t => t 0 1) = .ok (5/12) := by decide +kernel

/-- `3 → 0 → 1 → 4` and `3 → 0 → 5`: states 0 and 1 do not emit; state 0 goes to either side with
probability one half. -/
def chainGraph : Graph ℚ :=
  ⟨6, [(0, none), (1, none), (3, some 0), (4, some 1), (5, some 2)],
    [⟨3, 0, 1⟩, ⟨0, 1, 1/2⟩, ⟨0, 5, 1/2⟩, ⟨1, 4, 1⟩], some 3, some 4⟩

/-- **C07 (negation).** The weight one half of the choice in state 0 is lost on the way to state 4: the
row of state 3 is `(0, 1, 1/2)`, whereas the only path from 3 to 4 has weight one half. The paths of
this graph are unique. -/
theorem C07_first_weight_lost :
    (∃ t, chainGraph.transRaw = .ok t
      ∧ t (chainGraph.stateIndex 3) (chainGraph.stateIndex 4) = 1
      ∧ t (chainGraph.stateIndex 3) (chainGraph.stateIndex 5) = 1 / 2)
    ∧ ∀ p, EpsPath chainGraph 4 3 p → arcsWeight p = 1 / 2 := by
  constructor
  · cases h : chainGraph.transRaw with
    | error e =>
      exfalso
      obtain ⟨t, ht⟩ := transRaw_ok chainGraph (by unfold Closed; decide +kernel)
      rw [h] at ht; cases ht
    | ok t =>
      refine ⟨t, rfl, ?_⟩
      have h1 : (chainGraph.transRaw).map (fun t => (t (chainGraph.stateIndex 3)
          (chainGraph.stateIndex 4), t (chainGraph.stateIndex 3) (chainGraph.stateIndex 5)))
          = .ok (1, 1/2) := by decide +kernel
      rw [h] at h1
      have h2 := Except.ok.inj h1
      exact ⟨(Prod.ext_iff.1 h2).1, (Prod.ext_iff.1 h2).2⟩
  · have hinv : chainGraph.Inv := ⟨by decide +kernel, by decide +kernel, by decide +kernel⟩
    have hmem : ∀ a ∈ chainGraph.arcs, a = ⟨3, 0, 1⟩ ∨ a = ⟨0, 1, 1/2⟩ ∨ a = ⟨0, 5, 1/2⟩
        ∨ a = ⟨1, 4, 1⟩ := by
      intro a ha
      simpa [chainGraph] using ha
    intro p hp
    match p, hp with
    | [], hp => exact (EpsPath.not_nil _ _ _ hp).elim
    | a :: q, hp =>
      obtain ⟨hs, ha, hq⟩ := EpsPath.inv _ _ _ a q hp
      rcases hmem a ha with rfl | rfl | rfl | rfl
      · rcases hq with ⟨_, h, _⟩ | ⟨_, hq⟩
        · cases h
        · match q, hq with
          | [], hq => exact (EpsPath.not_nil _ _ _ hq).elim
          | b :: q, hq =>
            obtain ⟨hs, hb, hq⟩ := EpsPath.inv _ _ _ b q hq
            rcases hmem b hb with rfl | rfl | rfl | rfl
            · cases hs
            · rcases hq with ⟨_, h, _⟩ | ⟨_, hq⟩
              · cases h
              · match q, hq with
                | [], hq => exact (EpsPath.not_nil _ _ _ hq).elim
                | c :: q, hq =>
                  obtain ⟨hs, hc, hq⟩ := EpsPath.inv _ _ _ c q hq
                  rcases hmem c hc with rfl | rfl | rfl | rfl
                  · cases hs
                  · cases hs
                  · cases hs
                  · rcases hq with ⟨rfl, _, _⟩ | ⟨h, _⟩
                    · norm_num [arcsWeight]
                    · exact absurd h (by unfold Silent; decide +kernel)
            · rcases hq with ⟨_, h, _⟩ | ⟨h, _⟩
              · cases h
              · exact absurd h (by unfold Silent; decide +kernel)
            · cases hs
      · cases hs
      · cases hs
      · cases hs

/-- `0 → 1 → {2, 3} → 4 → 5`: two paths through non-emitting states, all the weights one but for the
arcs into state 4, which are the arguments. -/
def diamond (arcs : List (Arc ℚ)) : Graph ℚ :=
  ⟨6, [(0, some 0), (1, none), (2, none), (3, none), (4, none), (5, some 1)], arcs, some 0, some 5⟩

/-- **C07 (negation, second cause).** Of two paths meeting in a non-emitting state only one is counted:
here all the weights are one, there are two paths of weight one and the compiled weight is one. -/
theorem C07_second_path_lost :
    let g := diamond [⟨0, 1, 1⟩, ⟨1, 2, 1⟩, ⟨1, 3, 1⟩, ⟨2, 4, 1⟩, ⟨3, 4, 1⟩, ⟨4, 5, 1⟩]
    (g.transRaw).map (fun t => t 0 1) = .ok 1
    ∧ ∃ p q, p ≠ q ∧ EpsPath g 5 0 p ∧ EpsPath g 5 0 q ∧ arcsWeight p = 1 ∧ arcsWeight q = 1 := by
  refine ⟨by decide +kernel, [⟨0, 1, 1⟩, ⟨1, 2, 1⟩, ⟨2, 4, 1⟩, ⟨4, 5, 1⟩],
    [⟨0, 1, 1⟩, ⟨1, 3, 1⟩, ⟨3, 4, 1⟩, ⟨4, 5, 1⟩], by decide +kernel, ?_, ?_, ?_, ?_⟩
  · refine .step ⟨0, 1, 1⟩ _ (by decide +kernel) (by unfold Silent; decide +kernel) ?_
    refine .step ⟨1, 2, 1⟩ _ (by decide +kernel) (by unfold Silent; decide +kernel) ?_
    refine .step ⟨2, 4, 1⟩ _ (by decide +kernel) (by unfold Silent; decide +kernel) ?_
    exact .last ⟨4, 5, 1⟩ (by decide +kernel) rfl ⟨1, by decide +kernel⟩
  · refine .step ⟨0, 1, 1⟩ _ (by decide +kernel) (by unfold Silent; decide +kernel) ?_
    refine .step ⟨1, 3, 1⟩ _ (by decide +kernel) (by unfold Silent; decide +kernel) ?_
    refine .step ⟨3, 4, 1⟩ _ (by decide +kernel) (by unfold Silent; decide +kernel) ?_
    exact .last ⟨4, 5, 1⟩ (by decide +kernel) rfl ⟨1, by decide +kernel⟩
  · simp [arcsWeight]
  · simp [arcsWeight]

/-! ## C75: dependence on the iteration order of the set of arcs -/

section C75

variable {F : Type} [Field F]

/-- **C75 (partial).** If there is at most one path between non-emitting states, the compiled transition
weights do not depend on the order in which the set of arcs is iterated. -/
theorem C75_order_irrelevant_partial (g h : Graph F) (hg : g.Inv) (hc : Closed g)
    (hu : UniqueSilent g) (hs : g.states = h.states) (ha : g.arcs.Perm h.arcs) (hi : h.Inv)
    (e1 e2 : ℕ) (h1 : Emits g e1) (h2 : Emits g e2) :
    ∃ t t', g.transRaw = .ok t ∧ h.transRaw = .ok t'
      ∧ t (g.stateIndex e1) (g.stateIndex e2) = t' (h.stateIndex e1) (h.stateIndex e2) := by
  have hm : ∀ a, a ∈ g.arcs ↔ a ∈ h.arcs := fun a => ha.mem_iff
  have hc' : Closed h := by
    intro a hma
    have := hc a ((hm a).2 hma)
    unfold ids at *
    rwa [hs] at this
  have hsp : ∀ e s p, SilentPath h e s p → SilentPath g e s p := by
    intro e s p hp
    induction hp with
    | nil hsil => exact .nil (by unfold Silent; rw [hs]; exact hsil)
    | step a p hma hsil _ ih => exact .step a p ((hm a).2 hma) (by unfold Silent; rw [hs]; exact hsil) ih
  have hu' : UniqueSilent h := fun s e p q hp hq => hu s e p q (hsp _ _ _ hp) (hsp _ _ _ hq)
  obtain ⟨t, ht, ps, a1, a2, a3⟩ := transRaw_unique g hg hu hc e1 e2 h1 h2
  obtain ⟨t', ht', ps', b1, b2, b3⟩ := transRaw_unique h hi hu' hc' e1 e2
    (by unfold Emits; rw [← hs]; exact h1) (by unfold Emits; rw [← hs]; exact h2)
  refine ⟨t, t', ht, ht', ?_⟩
  rw [a3, b3]
  refine List.Perm.sum_eq (List.Perm.map _ ?_)
  rw [List.perm_ext_iff_of_nodup a1 b1]
  intro p
  rw [a2, b2]
  exact ⟨eps_perm g h hs hm _ _ _, eps_perm h g hs.symm (fun a => (hm a).symm) _ _ _⟩

end C75

/-- **C75 (negation).** The same graph with its arcs iterated in two different orders gives two
different transition weights. -/
theorem C75_depends_on_set_order :
    let arcs : List (Arc ℚ) :=
      [⟨0, 1, 1⟩, ⟨1, 2, 1⟩, ⟨1, 3, 1⟩, ⟨2, 4, 1/2⟩, ⟨3, 4, 1⟩, ⟨4, 5, 1⟩]
    let arcs' : List (Arc ℚ) :=
      [⟨0, 1, 1⟩, ⟨1, 3, 1⟩, ⟨1, 2, 1⟩, ⟨2, 4, 1/2⟩, ⟨3, 4, 1⟩, ⟨4, 5, 1⟩]
    arcs.Perm arcs' ∧ ((diamond arcs).transRaw).map (fun t => t 0 1) = .ok 1
    ∧ ((diamond arcs').transRaw).map (fun t => t 0 1) = .ok (1/2) := by
  refine ⟨by decide +kernel, by decide +kernel, by decide +kernel⟩

end Verif.Props
