import Verif.Lemmas.Pipeline
import Mathlib.Algebra.Field.Rat
import Mathlib.Algebra.Order.Ring.Rat

/-!
# Numbering of the states of the decoding graph (C08)
-/

namespace Verif.Props

open Verif Verif.Graph Verif.Pipeline

variable {F : Type}

/-- **C08.** Whatever the configuration, the list of units (distinct names) and the phone-loop graph,
if the commands making the units, the phone loop and the decoding graph succeed, and the graph is
compiled, then the `i`-th state of the compiled graph emits pdf `i`, and there are as many states as
emission models. -/
theorem C08_state_emits_own_pdf [Field F] [LinearOrder F] (conf : List (String × List (Arc F)))
    (lines loopLines : List (String × String)) (group : Option String)
    (units : List (String × Graph F)) (n : ℕ) (loop : Graph F × List (ℕ × String))
    (graph : Graph F) (startPdf endPdf : List (String × Option ℕ)) (c : Compiled F)
    (hn : (lines.map Prod.fst).Nodup)
    (h1 : mkphones conf lines = .ok (units, n))
    (h2 : mkphoneloopgraph loopLines group = .ok loop)
    (h3 : mkdecodegraph loop units = .ok (graph, startPdf, endPdf))
    (h4 : graph.compile = .ok c) :
    c.pdfMapping = List.range n ∧ graph.emitting.length = n := by
  obtain ⟨-, ⟨sp, hchain⟩, hsum⟩ := mkphones_chain conf lines units n hn h1
  obtain ⟨g0, sym⟩ := loop
  obtain ⟨hsil, hsym⟩ := mkphoneloopgraph_silent loopLines group g0 sym h2
  unfold mkdecodegraph at h3
  dsimp only at h3
  split at h3
  · cases h3
  · rename_i g1 hg1
    split at h3
    · cases h3
    · rename_i g2 hg2
      split at h3
      · cases h3
      · rename_i r hr
        cases h3
        obtain ⟨k1, k2⟩ := replaceAll_pdf g0.count _ (by
          intro p hp
          rcases foldl_dictSet_mem Prod.snd Prod.fst _ _ _ hp with hp | ⟨x, hx, rfl⟩
          · simp at hp
          · exact hsym x hx) units g0 g1 le_rfl (fun s hs _ => hsil s hs) hg1
        have hne := entryExit_emits units _ _ hr
        have hpm : graph.pdfMapping = List.range n := by
          have e := (normalizeLoop_frame g1.ids g1).2.1
          have e' : (normalizeLoop g1.ids g1).1 = graph := congrArg Prod.fst hg2
          rw [e'] at e
          have h0 : g0.pdfMapping = [] := by
            unfold pdfMapping
            rw [List.filterMap_eq_nil_iff]
            exact fun s hs => hsil s hs
          have hr := chain_range 0 sp (units.map Prod.snd) hchain le_rfl
            (by intro g hg; obtain ⟨p, hp, rfl⟩ := List.mem_map.1 hg; exact k2 p hp)
            (by intro g hg; obtain ⟨p, hp, rfl⟩ := List.mem_map.1 hg; exact hne p hp)
          rw [List.flatMap_map, List.map_map] at hr
          have hpd : graph.pdfMapping = g1.pdfMapping := by unfold pdfMapping; rw [e]
          rw [hpd, k1, h0, List.nil_append, hr, hsum, List.range_eq_range']
          rfl
        have hcp : c.pdfMapping = graph.pdfMapping := by
          unfold compile at h4
          dsimp only at h4
          split at h4
          · cases h4
          · split at h4
            · cases h4
            · split at h4
              · cases h4
              · cases h4; rfl
        refine ⟨hcp.trans hpm, ?_⟩
        have : graph.emitting.length = graph.pdfMapping.length := by
          unfold emitting pdfMapping
          induction graph.states with
          | nil => rfl
          | cons s l ih =>
            obtain ⟨i, p⟩ := s
            cases p with
            | none => simpa using ih
            | some p => simpa using ih
        rw [this, hpm, List.length_range]

/-! A configuration with two groups of different topologies. -/

/-- A left-to-right topology with two emitting states. -/
def topoSil : List (Arc ℚ) := [⟨0, 1, 1⟩, ⟨1, 1, 3/4⟩, ⟨1, 2, 1/4⟩, ⟨2, 2, 3/4⟩, ⟨2, 3, 1/4⟩]

/-- A topology with one emitting state. -/
def topoUnit : List (Arc ℚ) := [⟨0, 1, 1⟩, ⟨1, 1, 1/2⟩, ⟨1, 2, 1/2⟩]

/-- Three units, not sorted by group. -/
def demoLines : List (String × String) := [("a", "sp"), ("sil", "nsp"), ("b", "sp")]

/-- The four commands. -/
def demoPipeline (lines : List (String × String)) (group : Option String) :
    Except Err (List ℕ × ℕ × List (String × Option ℕ) × List (String × Option ℕ)) :=
  match mkphones [("nsp", topoSil), ("sp", topoUnit)] lines with
  | .error e => .error e
  | .ok (us, n) =>
    match mkphoneloopgraph lines group with
    | .error e => .error e
    | .ok l =>
      match mkdecodegraph l us with
      | .error e => .error e
      | .ok (g, s, e) =>
        match g.compile with
        | .error e => .error e
        | .ok c => .ok (c.pdfMapping, n, s, e)

set_option synthInstance.maxSize 1000 in
-- the hypotheses are met: all the commands succeed, with and without a start/end group
example : (demoLines.map Prod.fst).Nodup
    ∧ (demoPipeline demoLines (some "nsp")).toOption = some ([0, 1, 2, 3], 4,
      [("sil", some 0), ("a", some 2), ("b", some 3)], [("sil", some 1), ("a", some 2), ("b", some 3)])
    ∧ ((demoPipeline demoLines none).toOption.map (·.1)) = some [0, 1, 2, 3] := by
  refine ⟨by decide +kernel, by decide +kernel, by decide +kernel⟩

set_option synthInstance.maxSize 1000 in
/-- **C08 needs distinct names.** When a unit is listed twice the commands succeed but the emission
model of its first occurrence is never used and the states are shifted. -/
theorem C08_duplicate_unit_shifts :
    (demoPipeline [("s", "nsp"), ("a", "sp"), ("a", "sp"), ("b", "sp")] none).toOption
      = some ([0, 1, 3, 4], 5, [("s", some 0), ("a", some 3), ("b", some 4)],
        [("s", some 1), ("a", some 3), ("b", some 4)]) := by
  decide +kernel

/-- **C08 (error branches).** A topology whose ids do not start at zero raises `KeyError`; a unit of
an unknown group raises `KeyError`; a unit named like the pivot raises `KeyError` without a start/end
group; an empty topology raises `IndexError`. -/
theorem C08_error_branches :
    (mkphones [("sp", ([] : List (Arc ℚ)))] [("a", "sp")]).map (fun _ => ()) = .error .indexError
    ∧ (mkphones [("sp", topoUnit)] [("a", "x")]).map (fun _ => ()) = .error .keyError
    ∧ (demoPipeline [("s", "nsp"), ("#1", "sp")] none).map (fun _ => ()) = .error .keyError
    ∧ (((mkphones [("sp", ([⟨1, 2, 1⟩, ⟨2, 2, 1/2⟩, ⟨2, 3, 1/2⟩] : List (Arc ℚ)))] [("a", "sp")]).bind
        (fun us => (mkphoneloopgraph [("a", "sp")] none).bind
          (fun l => mkdecodegraph l us.1))).map (fun _ => ())) = .error .keyError := by
  refine ⟨by decide +kernel, by decide +kernel, by decide +kernel, by decide +kernel⟩

end Verif.Props
