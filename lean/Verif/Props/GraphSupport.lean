import Verif.Lemmas.GraphSupport
import Verif.Props.GraphCompile

/-!
# Properties of the language of a compiled graph
-/

namespace Verif.Props

open Verif Verif.Graph Verif.Spec

section

variable {F : Type} [Field F] [LinearOrder F] [IsStrictOrderedRing F]

/-- **C151 (partial).** Compiling a normalised graph with positive weights keeps its paths: the sequences of pdf ids of
the state sequences having a positive probability in the compiled graph are exactly the non-empty sequences emitted
along the paths of the graph from its start to its end; no probability is negative.  Missing: graphs where a silent state entered from an emitting
state has several ways out, one of them to another silent state; see `C151_transition_lost`. -/
theorem C151_language_partial (g : Graph F) (hg : g.Inv) (hc : Closed g) (hw : ∀ a ∈ g.arcs, 0 < a.weight)
    (ho : OutSums g) (hd : Direct g) (s e : ℕ) (hs : g.startState = some s) (he : g.endState = some e)
    (hss : Silent g s) (hse : Silent g e) :
    ∃ c, g.compile = .ok c ∧ Nonneg c ∧ ∀ w, w ≠ [] → (Spells c w ↔ Accepts g w) := by
  obtain ⟨c, -, -, -, h, -⟩ := compile_ok g hc
  refine ⟨c, h, compile_nonneg g hg hc hw ho hd s e hs he c h, fun w hne => ?_⟩
  obtain ⟨c0, c1, c2, c3, c4, c5⟩ := compile_support g hg hc hw ho hd s e hs he c h
  rw [accepts_iff g hg hc s e hs he hss hse w hne]
  constructor
  · rintro ⟨q, ⟨vi, vf, hi, hf, hq, ⟨a, ha, ha'⟩, hch, b, hb, hb'⟩, rfl⟩
    have hq' : ∀ k ∈ q, k < g.emitting.length := by
      intro k hk
      rw [← mapping_length, ← c0]
      exact hq k hk
    -- the emitting states of `q`
    have hst : ∀ k, k < g.emitting.length → Emits g (g.emitting.getD k 0) ∧ g.stateIndex (g.emitting.getD k 0) = k := by
      intro k hk
      rw [show g.emitting.getD k 0 = g.emitting[k] by simp [List.getD, hk]]
      refine ⟨(emits_mem g _).2 (List.getElem_mem _), ?_⟩
      unfold stateIndex
      exact List.Nodup.idxOf_getElem (emitting_nodup g hg) k hk
    cases q with
    | nil => simp at ha
    | cons k q =>
      obtain rfl : k = a := by simpa using ha
      have hmap : ((k :: q).map fun k => g.emitting.getD k 0).map g.stateIndex = k :: q := by
        rw [List.map_map]
        conv_rhs => rw [← List.map_id (k :: q)]
        refine List.map_congr_left fun j hj => ?_
        exact (hst j (hq' j hj)).2
      refine ⟨g.emitting.getD k 0, q.map fun k => g.emitting.getD k 0, ?_, ⟨?_, ?_, ?_⟩, ?_⟩
      · rw [← c1 vi hi, (hst k (hq' k List.mem_cons_self)).2]
        exact ha'
      · intro x hx
        rw [← List.map_cons (f := fun k => g.emitting.getD k 0)] at hx
        obtain ⟨j, hj, rfl⟩ := List.mem_map.1 hx
        exact (hst j (hq' j hj)).1
      · rw [← List.map_cons (f := fun k => g.emitting.getD k 0),
          chain_congr _ (fun a b => 0 < c.trans a b) g.stateIndex _ (by
            intro x hx y _
            obtain ⟨j, hj, rfl⟩ := List.mem_map.1 hx
            exact (c5 _ y (hst j (hq' j hj)).1).symm), hmap]
        exact hch
      · refine ⟨g.emitting.getD b 0, ?_, ?_⟩
        · rw [← List.map_cons (f := fun k => g.emitting.getD k 0), List.getLast?_map, hb]
          rfl
        · rw [← c3 vf hf, (hst b (hq' b (List.mem_of_getLast? hb))).2]
          exact hb'
      · rw [← List.map_cons (f := fun k => g.emitting.getD k 0), c0]
        conv_lhs => rw [← hmap]
        rw [List.map_map]
        rfl
  · rintro ⟨e1, es, hp, ⟨h1, h2, b, h3, h4⟩, rfl⟩
    obtain ⟨vi, hi⟩ := c2 ⟨e1, hp⟩
    obtain ⟨vf, hf⟩ := c4 ⟨b, h4⟩
    refine ⟨(e1 :: es).map g.stateIndex, ⟨vi, vf, hi, hf, ?_, ⟨_, rfl, (c1 vi hi e1).2 hp⟩, ?_, ?_⟩, ?_⟩
    · intro k hk
      obtain ⟨x, hx, rfl⟩ := List.mem_map.1 hk
      rw [c0, mapping_length]
      exact List.idxOf_lt_length_iff.2 ((emits_mem g x).1 (h1 x hx))
    · rw [← chain_congr (fun a b => ∃ p, EpsPath g b a p) _ g.stateIndex _ (fun x hx y _ => (c5 x y (h1 x hx)).symm)]
      exact h2
    · refine ⟨g.stateIndex b, ?_, (c3 vf hf b).2 h4⟩
      rw [List.getLast?_map, h3]
      rfl
    · rw [c0, List.map_map]
      rfl

end

/-- Two units in a loop: `0` start, `1` end, `2` the loop, `3 4 5` a unit of one pdf, `6 7 8 9` a unit of two pdfs. -/
def loopSample : Graph ℚ where
  states := [(0, none), (1, none), (2, none), (3, none), (4, some 0), (5, none), (6, none), (7, some 1), (8, some 2),
    (9, none)]
  arcs := [⟨0, 2, 1⟩, ⟨2, 1, 1/3⟩, ⟨2, 3, 1/3⟩, ⟨2, 6, 1/3⟩, ⟨5, 2, 1⟩, ⟨9, 2, 1⟩, ⟨3, 4, 1⟩, ⟨4, 4, 1/2⟩, ⟨4, 5, 1/2⟩,
    ⟨6, 7, 1⟩, ⟨7, 7, 3/4⟩, ⟨7, 8, 1/4⟩, ⟨8, 9, 1⟩]
  count := 10
  startState := some 0
  endState := some 1

/-- `loopSample` satisfies the hypotheses of C151, and its compiled form spells `0 0 1 1 2 0`. -/
example : ∃ c, loopSample.compile = .ok c ∧ Spells c [0, 0, 1, 1, 2, 0] := by
  obtain ⟨c, h, -, hc⟩ := C151_language_partial loopSample ⟨by decide +kernel, by decide +kernel, by decide +kernel⟩
    (by unfold Closed; decide +kernel) (by decide +kernel) (by unfold OutSums; decide +kernel)
    (by
      intro a ha he hs
      right
      have he' : a.start ∈ loopSample.emitting := (emits_mem _ _).1 he
      have hone : ∀ n : ℕ, (n = 5 ∨ n = 9) → ∀ b ∈ loopSample.arcs, ∀ c ∈ loopSample.arcs, b.start = n →
          c.start = n → b = c := by
        rintro n (rfl | rfl) <;> decide +kernel
      have h59 : a.stop = 5 ∨ a.stop = 9 := by
        have : Silent loopSample a.stop → a.start ∈ loopSample.emitting → a.stop = 5 ∨ a.stop = 9 := by
          clear hs he he'
          unfold Silent
          revert a
          decide +kernel
        exact this hs he'
      intro b hb c hc h1 h2 _ _
      exact hone _ h59 b hb c hc h1 h2) 0 1 rfl rfl (by unfold Silent; decide +kernel) (by unfold Silent; decide +kernel)
  refine ⟨c, h, (hc _ (by simp)).2 ⟨0, 1, rfl, rfl, ?_⟩⟩
  have st : ∀ (i j : ℕ) (x : ℚ) w w', (⟨i, j, x⟩ : Arc ℚ) ∈ loopSample.arcs → emitLab loopSample i w →
      Reads loopSample (emitLab loopSample) 1 j w' → Reads loopSample (emitLab loopSample) 1 i (w ++ w') :=
    fun i j x w w' h1 h2 h3 => .step ⟨i, j, x⟩ w w' h1 h2 h3
  refine st 0 2 1 [] _ (by decide +kernel) (lab_of _ _ none (by decide +kernel)) ?_
  refine st 2 3 (1/3) [] _ (by decide +kernel) (lab_of _ _ none (by decide +kernel)) ?_
  refine st 3 4 1 [] _ (by decide +kernel) (lab_of _ _ none (by decide +kernel)) ?_
  refine st 4 4 (1/2) [0] _ (by decide +kernel) (lab_of _ _ (some 0) (by decide +kernel)) ?_
  refine st 4 5 (1/2) [0] _ (by decide +kernel) (lab_of _ _ (some 0) (by decide +kernel)) ?_
  refine st 5 2 1 [] _ (by decide +kernel) (lab_of _ _ none (by decide +kernel)) ?_
  refine st 2 6 (1/3) [] _ (by decide +kernel) (lab_of _ _ none (by decide +kernel)) ?_
  refine st 6 7 1 [] _ (by decide +kernel) (lab_of _ _ none (by decide +kernel)) ?_
  refine st 7 7 (3/4) [1] _ (by decide +kernel) (lab_of _ _ (some 1) (by decide +kernel)) ?_
  refine st 7 8 (1/4) [1] _ (by decide +kernel) (lab_of _ _ (some 1) (by decide +kernel)) ?_
  refine st 8 9 1 [2] _ (by decide +kernel) (lab_of _ _ (some 2) (by decide +kernel)) ?_
  refine st 9 2 1 [] _ (by decide +kernel) (lab_of _ _ none (by decide +kernel)) ?_
  refine st 2 3 (1/3) [] _ (by decide +kernel) (lab_of _ _ none (by decide +kernel)) ?_
  refine st 3 4 1 [] _ (by decide +kernel) (lab_of _ _ none (by decide +kernel)) ?_
  refine st 4 5 (1/2) [0] _ (by decide +kernel) (lab_of _ _ (some 0) (by decide +kernel)) ?_
  refine st 5 2 1 [] _ (by decide +kernel) (lab_of _ _ none (by decide +kernel)) ?_
  refine st 2 1 (1/3) [] _ (by decide +kernel) (lab_of _ _ none (by decide +kernel)) ?_
  exact .stop [] (lab_of _ _ none (by decide +kernel))

/-- From the emitting state `1` the silent state `2` leads to the emitting state `4` and, through the silent state `3`,
back to `1`. -/
def lostGraph : Graph ℚ where
  states := [(0, none), (1, some 0), (2, none), (3, none), (4, some 1), (5, none)]
  arcs := [⟨0, 1, 1⟩, ⟨1, 2, 1⟩, ⟨2, 3, 1/2⟩, ⟨2, 4, 1/2⟩, ⟨3, 1, 1⟩, ⟨4, 5, 1⟩]
  count := 6
  startState := some 0
  endState := some 5

/-- **C151 (negation).** In a normalised graph with positive weights, the weight of the arc `2 → 3` being lost, the
transition of state `1` to itself gets the probability one and the transition to state `4` is erased: the path emitting
`0 1` has no probability any more. -/
theorem C151_transition_lost :
    lostGraph.Inv ∧ Closed lostGraph ∧ (∀ a ∈ lostGraph.arcs, 0 < a.weight) ∧ OutSums lostGraph ∧
    Accepts lostGraph [0, 1] ∧ ∃ c, lostGraph.compile = .ok c ∧ ¬ Spells c [0, 1] ∧ c.trans 0 0 = 1 ∧ c.trans 0 1 = 0 := by
  refine ⟨⟨by decide +kernel, by decide +kernel, by decide +kernel⟩, by unfold Closed; decide +kernel, by decide +kernel,
    by unfold OutSums; decide +kernel, ⟨0, 5, rfl, rfl, ?_⟩, ?_⟩
  · have st : ∀ (i j : ℕ) (x : ℚ) w w', (⟨i, j, x⟩ : Arc ℚ) ∈ lostGraph.arcs → emitLab lostGraph i w →
        Reads lostGraph (emitLab lostGraph) 5 j w' → Reads lostGraph (emitLab lostGraph) 5 i (w ++ w') :=
      fun i j x w w' h1 h2 h3 => .step ⟨i, j, x⟩ w w' h1 h2 h3
    refine st 0 1 1 [] _ (by decide +kernel) (Or.inl ⟨by decide +kernel, rfl⟩) ?_
    refine st 1 2 1 [0] _ (by decide +kernel) (Or.inr ⟨0, by decide +kernel, rfl⟩) ?_
    refine st 2 4 (1/2) [] _ (by decide +kernel) (Or.inl ⟨by decide +kernel, rfl⟩) ?_
    refine st 4 5 1 [1] _ (by decide +kernel) (Or.inr ⟨1, by decide +kernel, rfl⟩) ?_
    exact .stop [] (Or.inl ⟨by decide +kernel, rfl⟩)
  · obtain ⟨c, li, lf, t, hcomp, hli, hlf, ht, hi, hf, htr⟩ := compile_ok lostGraph (by unfold Closed; decide +kernel)
    have hn : lostGraph.emitting.length = 2 := by decide +kernel
    have hm : c.pdfMapping = [0, 1] := by
      unfold compile at hcomp
      simp only [findPrevious, hli, hlf, ht] at hcomp
      cases hcomp
      rfl
    have hrow : (lostGraph.transRaw.map fun t => (t 0 0, t 0 1)) = .ok (1, 1/2) := by decide +kernel
    rw [ht] at hrow
    have h2 := Except.ok.inj hrow
    have h00 : t 0 0 = 1 := (Prod.ext_iff.1 h2).1
    have h01 : t 0 1 = 1/2 := (Prod.ext_iff.1 h2).2
    have hpos : 0 < t 0 0 ∧ 0 < ((List.range 2).map (t 0)).sum - t 0 0 := by
      have : ((List.range 2).map (t 0)).sum = t 0 0 + t 0 1 := by simp [List.range_succ]
      rw [this, h00, h01]
      norm_num
    have hc00 : c.trans 0 0 = 1 := by
      rw [htr]
      dsimp only
      unfold normalizeRow
      rw [hn, if_pos hpos, if_pos rfl, h00]
    have hc01 : c.trans 0 1 = 0 := by
      rw [htr]
      dsimp only
      unfold normalizeRow
      rw [hn, if_pos hpos, if_neg (by decide), h00]
      simp
    refine ⟨c, hcomp, ?_, hc00, hc01⟩
    rintro ⟨q, ⟨i, f, _, _, hq, _, hch, _⟩, hw⟩
    rw [hm] at hw hq
    match q, hq, hch, hw with
    | [], _, _, hw => simp at hw
    | [_], _, _, hw => simp at hw
    | a :: b :: d :: r, _, _, hw => simp at hw
    | [a, b], hq, hch, hw =>
      have ha : a < 2 := hq a (by simp)
      have hb : b < 2 := hq b (by simp)
      have key : ∀ a < 2, ∀ b < 2, [0, 1] = [a, b].map (fun k => [0, 1].getD k 0) → a = 0 ∧ b = 1 := by decide
      obtain ⟨rfl, rfl⟩ := key a ha b hb hw
      rw [List.isChain_cons_cons] at hch
      rw [hc01] at hch
      exact absurd hch.1 (lt_irrefl _)

end Verif.Props
