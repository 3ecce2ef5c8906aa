import Verif.Lemmas.CompiledLang
import Verif.Props.AliGraph
import Verif.Props.LoopGraph
import Verif.Props.Units

/-!
# Properties: the state sequences possible in alignment graphs and decoding graphs (C152)
-/

namespace Verif.Props

open Verif Verif.Spec Verif.Graph Verif.Pipeline

variable {F : Type} [Field F] [LinearOrder F] [IsStrictOrderedRing F]

/-- **C152 (alignment graphs).** Let the units of a transcription have well-formed HMMs which are left by their last
state only.  The compiled alignment graph of the transcription has exactly the paths of the transcription: the
non-empty sequences of pdf ids along its state sequences of positive probability are those made of one sequence
accepted by each unit, in order.  Its states emit pdfs of these units only and no probability is negative. -/
theorem C152_alignment (units : List (String × Graph F)) (hn : (units.map Prod.fst).Nodup)
    (seq : List String) (h : ∀ u ∈ seq, ∃ hmm, (u, hmm) ∈ units ∧ WellFormed hmm ∧ Ends hmm) :
    ∃ c, createGraphFromSeq seq units = .ok c ∧ Nonneg c
      ∧ (∀ p ∈ c.pdfMapping, ∃ u ∈ seq, ∃ hmm i, (u, hmm) ∈ units ∧ (i, some p) ∈ hmm.states)
      ∧ ∀ w, w ≠ [] → (Spells c w ↔ ∃ ws, List.Forall₂ (fun u v => ∃ hmm, (u, hmm) ∈ units ∧ Accepts hmm v) seq ws
          ∧ w = ws.flatten) := by
  obtain ⟨subs, hs'⟩ := exists_subs (P := fun g => WellFormed g ∧ Ends g) units hn seq h
  have hs := hs'.imp fun _ _ (h : _ ∧ (_ ∧ _) ∧ _) => (⟨h.1, h.2.1.1, h.2.2⟩ : _ ∧ _ ∧ _)
  obtain ⟨g, h1, h2, h3, h4, h5, h6, h7, -, h9, h10, h11⟩ := ali_replaced units seq subs hs (fun i w => w = [i])
  have hends : ∀ g ∈ subs, Ends g := by
    intro g hg
    obtain ⟨i, hi, rfl⟩ := List.mem_iff_getElem.1 hg
    exact ((List.forall₂_iff_get.1 hs').2 i (hs.length_eq ▸ hi) hi).2.1.2
  obtain ⟨c, hc, hcn, hcm, hcw⟩ := compiled_of_funnel g h3 h4 h2 h9 0 (seq.length + 1) h5 h6 h10 (h11 hends)
  have hali : aliGraph seq units = .ok g.normalize.1 := by
    simp only [aliGraph, h1]
    generalize g.normalize = r at *
    obtain ⟨g', e⟩ := r
    dsimp only at h2
    subst h2
    rfl
  refine ⟨c, by simp only [createGraphFromSeq, hali]; exact hc, hcn, ?_, fun w hw => (hcw w hw).trans ((h7 w).trans ?_)⟩
  · intro p hp
    rw [hcm] at hp
    obtain ⟨⟨i, o⟩, hi, ho⟩ := List.mem_filterMap.1 hp
    dsimp only at ho
    subst ho
    obtain ⟨i1, i2, i3, -⟩ := linearGraph_eq (F := F) seq.length
    have hsil : ∀ s ∈ (linearGraph seq.length : Graph F × List ℕ).1.states, s.2 = none := by
      intro s hs
      rw [i3] at hs
      obtain ⟨k, -, rfl⟩ := List.mem_map.1 hs
      rfl
    rcases replaceSeq_pdf (seq.length + 2) units _ (by
      intro x hx
      have := (List.of_mem_zip hx).1
      rw [i1, List.mem_range'_1] at this
      omega) _ g (by omega) (fun s hs _ => hsil s hs) h1 i p hi with ⟨k, hk⟩ | ⟨x, hx, hmm, h8, k, h9⟩
    · exact absurd (hsil _ hk) (by simp)
    · exact ⟨x.2, (List.of_mem_zip hx).2, hmm, k, h8, h9⟩
  have hiff := fun ws => forall₂_subs units hn seq subs (hs.imp fun _ _ h => h.1) ws
  constructor
  · rintro ⟨ws, hws, rfl⟩
    exact ⟨ws, (hiff ws).2 hws, rfl⟩
  · rintro ⟨ws, hws, rfl⟩
    exact ⟨ws, (hiff ws).1 hws, rfl⟩

/-- **C152 (decoding graphs).** Under the hypotheses of C83, the HMMs of the units being left by their last state only,
the compiled decoding graph has exactly the paths of the phone loop: the non-empty sequences of pdf ids along its state
sequences of positive probability are the concatenations of sequences accepted by the units of an allowed sequence of
units; its states are the emitting states of the units, in order, and no probability is negative. -/
theorem C152_decoding (units : List (String × String)) (group : Option String)
    (hmms : List (String × Graph F)) (hn : (units.map Prod.fst).Nodup)
    (hsp : ∀ u ∈ units, u.1 ∉ ["\\<s\\>", "\\</s\\>", "#1"])
    (hperm : (hmms.map Prod.fst).Perm (units.map Prod.fst))
    (hw : ∀ p ∈ hmms, WellFormed p.2 ∧ SingleEntry p.2 ∧ SingleExit p.2 ∧ Ends p.2) :
    ∃ loop g entry exit c, mkphoneloopgraph units group = .ok loop ∧ mkdecodegraph loop hmms = .ok (g, entry, exit)
      ∧ entryExit hmms ([], []) = .ok (entry, exit) ∧ g.compile = .ok c ∧ Nonneg c
      ∧ (∀ q ∈ c.pdfMapping, ∃ p ∈ hmms, ∃ i, (i, some q) ∈ p.2.states)
      ∧ (c.pdfMapping = hmms.flatMap fun p => p.2.states.filterMap Prod.snd)
      ∧ ∀ w, w ≠ [] → (Spells c w ↔ ∃ us ws, LoopSeq units group us
        ∧ List.Forall₂ (fun u v => ∃ hmm, (u, hmm) ∈ hmms ∧ Accepts hmm v) us ws ∧ w = ws.flatten) := by
  obtain ⟨loop, g, entry, exit, h1, h2, h0, h3, h4, h5, h6, h7, h8, h9, h10, hpdf, hpdfs, h11⟩ :=
    decode_built units group hmms hn hsp hperm fun p hp => ⟨(hw p hp).1, (hw p hp).2.1, (hw p hp).2.2.1⟩
  obtain ⟨c, hc, hcn, hcm, hcw⟩ := compiled_of_funnel g h3 h4 h5 h6 0 1 h7 h8 h9 (h10 fun p hp => (hw p hp).2.2.2)
  refine ⟨loop, g.normalize.1, entry, exit, c, h1, h2, h0, hc, hcn, fun q hq => ?_, ?_, fun w hw => (hcw w hw).trans (h11 w)⟩
  swap
  · rw [hcm]; exact hpdfs
  rw [hcm] at hq
  obtain ⟨⟨i, o⟩, hi, ho⟩ := List.mem_filterMap.1 hq
  dsimp only at ho
  subst ho
  exact hpdf i q hi

/-- No arc leaves the last states of the demo topologies. -/
theorem demo_last : (∀ a ∈ topoUnit, a.start ≠ 3 - 1) ∧ ∀ a ∈ topoSil, a.start ≠ 4 - 1 := by decide +kernel

/-- A unit of one pdf accepts the repetitions of this pdf. -/
theorem topoUnit_accepts (p k : ℕ) : Accepts (unitHmm topoUnit 3 p) (List.replicate (k + 1) p) := by
  refine ⟨0, 2, rfl, rfl, ?_⟩
  have h1 : ∀ k, Reads (unitHmm topoUnit 3 p) (emitLab (unitHmm topoUnit 3 p)) 2 1 (List.replicate (k + 1) p) := by
    intro k
    induction k with
    | zero =>
      exact .step ⟨1, 2, 1/2⟩ [p] [] (by simp [unitHmm, topoUnit]) (.inr ⟨p, by simp [unitHmm], rfl⟩)
        (.stop [] (.inl ⟨by simp [unitHmm], rfl⟩))
    | succ k ih =>
      exact .step ⟨1, 1, 1/2⟩ [p] _ (by simp [unitHmm, topoUnit]) (.inr ⟨p, by simp [unitHmm], rfl⟩) ih
  exact .step ⟨0, 1, 1⟩ [] _ (by simp [unitHmm, topoUnit]) (.inl ⟨by simp [unitHmm], rfl⟩) (h1 k)

-- the alignment graph of `a b b`: the compiled graph has the path `0 0 1 1 1`
example : ∃ c, createGraphFromSeq ["a", "b", "b"] [("a", unitHmm topoUnit 3 0), ("b", unitHmm topoUnit 3 1)] = .ok c
    ∧ Spells c [0, 0, 1, 1, 1] := by
  obtain ⟨c, h, -, -, hc⟩ := C152_alignment [("a", unitHmm topoUnit 3 0), ("b", unitHmm topoUnit 3 1)] (by decide)
    ["a", "b", "b"] (by
      have hu : ∀ p, WellFormed (unitHmm topoUnit 3 p) ∧ Ends (unitHmm topoUnit 3 p) := fun p =>
        ⟨(unitHmm_good _ _ _ topoUnit_valid).1, unitHmm_ends _ _ _ topoUnit_valid demo_last.1⟩
      intro u hu'
      simp only [List.mem_cons, List.not_mem_nil, or_false] at hu'
      rcases hu' with rfl | rfl | rfl
      · exact ⟨_, by simp, hu 0⟩
      · exact ⟨_, by simp, hu 1⟩
      · exact ⟨_, by simp, hu 1⟩)
  refine ⟨c, h, (hc _ (by simp)).2 ⟨[[0, 0], [1], [1, 1]], ?_, rfl⟩⟩
  exact .cons ⟨_, by simp, topoUnit_accepts 0 1⟩ (.cons ⟨_, by simp, topoUnit_accepts 1 0⟩
    (.cons ⟨_, by simp, topoUnit_accepts 1 1⟩ .nil))

-- the phone loop over two units: the compiled graph has the path `1 1 0 1`
example : ∃ loop g entry exit c, mkphoneloopgraph [("a", "sp"), ("b", "sp")] none = .ok loop
    ∧ mkdecodegraph loop [("a", unitHmm topoUnit 3 0), ("b", unitHmm topoUnit 3 1)] = .ok (g, entry, exit)
    ∧ g.compile = .ok c ∧ Spells c [1, 1, 0, 1] := by
  have hu : ∀ p, WellFormed (unitHmm topoUnit 3 p) ∧ SingleEntry (unitHmm topoUnit 3 p)
      ∧ SingleExit (unitHmm topoUnit 3 p) ∧ Ends (unitHmm topoUnit 3 p) := fun p =>
    ⟨(unitHmm_good _ _ _ topoUnit_valid).1, (unitHmm_good _ _ _ topoUnit_valid).2.1,
      (unitHmm_good _ _ _ topoUnit_valid).2.2, unitHmm_ends _ _ _ topoUnit_valid demo_last.1⟩
  obtain ⟨loop, g, entry, exit, c, h1, h2, -, h3, -, -, -, h4⟩ := C152_decoding [("a", "sp"), ("b", "sp")] none
    [("a", unitHmm topoUnit 3 0), ("b", unitHmm topoUnit 3 1)] (by decide) (by decide +kernel) (List.Perm.refl _) (by
      intro p hp
      simp only [List.mem_cons, List.not_mem_nil, or_false] at hp
      rcases hp with rfl | rfl
      · exact hu 0
      · exact hu 1)
  refine ⟨loop, g, entry, exit, c, h1, h2, h3, (h4 _ (by simp)).2 ⟨["b", "a", "b"], [[1, 1], [0], [1]], ⟨by decide, by simp⟩,
    ?_, rfl⟩⟩
  exact .cons ⟨_, by simp, topoUnit_accepts 1 1⟩ (.cons ⟨_, by simp, topoUnit_accepts 0 0⟩
    (.cons ⟨_, by simp, topoUnit_accepts 1 0⟩ .nil))

end Verif.Props
