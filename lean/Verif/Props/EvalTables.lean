import Verif.Lemmas.EvalTables

/-!
# C116: confusion tables and mutual information of alignments
-/

namespace Verif.Props

open Verif Pipeline Scoring Eval EvalSpec Filter Topology

/-- When all the utterances have a hypothesis the tables hold, for exactly the symbols and pairs seen, the
smoothing constant plus the number of frames.  (A missing hypothesis: see `C116_missing_reused`.) -/
theorem C116_tables_partial {F : Type} [Field F] (eps : F) (refMap hypMap : List (ℕ × String))
    (rf hf : ℕ → String) (refs hyps : List (String × List ℕ)) (pairs : List (String × String))
    (hp : ∀ p ∈ refs, p.1 ∈ hyps.map Prod.fst)
    (hr : ∀ x ∈ stateFrames refs hyps, dictGet refMap x.1 = .ok (rf x.1))
    (hh : ∀ x ∈ stateFrames refs hyps, dictGet hypMap x.2 = .ok (hf x.2))
    (hpairs : pairs = (stateFrames refs hyps).map fun x => (rf x.1, hf x.2)) :
    ∃ t, compareMain eps none refMap hypMap refs hyps = .ok t ∧
      (∀ r, t.ref.lookup r = if r ∈ pairs.map Prod.fst then some (eps + ((pairs.map Prod.fst).count r : F)) else none) ∧
      (∀ h, t.hyp.lookup h = if h ∈ pairs.map Prod.snd then some (eps + ((pairs.map Prod.snd).count h : F)) else none) ∧
      (∀ r h, ((t.joint.lookup r).getD []).lookup h =
        if (r, h) ∈ pairs then some (eps + (pairCount pairs r h : F)) else none) := by
  refine ⟨pairs.foldl (frameStep eps) ⟨[], [], []⟩, ?_, ?_, ?_, ?_⟩
  · unfold compareMain
    rw [compareAlis_ok eps refMap hypMap rf hf hyps refs none _ hp hr hh, hpairs]
  · intro r
    rw [frames_ref, addAll_lookup]
    simp
  · intro h
    rw [frames_hyp, addAll_lookup]
    simp
  · intro r h
    rw [← getOr_lookup, frames_joint, addAll_lookup, withRef_count]
    have : h ∈ withRef pairs r ↔ (r, h) ∈ pairs := by
      rw [← List.count_pos_iff, withRef_count, List.count_pos_iff]
    simp only [this]
    simp [getOr, pairCount]

example : compareMain (0 : ℚ) none [(0, "a"), (1, "b")] [(0, "x"), (1, "y")] [("u1", [0, 0, 1]), ("u2", [1])]
    [("u2", [1]), ("u1", [0, 1, 1])] = .ok ⟨[("a", [("x", 1), ("y", 1)]), ("b", [("y", 2)])],
      [("a", 2), ("b", 2)], [("x", 1), ("y", 3)]⟩ := by decide +kernel

/-- A frame with a state that has no symbol raises. -/
theorem C116_unknown_state {F : Type} [Field F] (eps : F) (groups : Option (List (String × List String)))
    (refMap hypMap : List (ℕ × String)) (f : String) (ra ha : List ℕ) (refs : List (String × List ℕ))
    (hyps : List (String × List ℕ)) (hl : hyps.lookup f = some ha)
    (h : ∃ x ∈ ra.zip ha, dictGet refMap x.1 = .error .keyError ∨ dictGet hypMap x.2 = .error .keyError) :
    compareMain eps groups refMap hypMap ((f, ra) :: refs) hyps = .error .keyError := by
  unfold compareMain
  rw [compareAlis, find_lookup, hl]
  simp only [Option.map_some]
  rw [compareFrames_error eps refMap hypMap _ _ h]

/-- The mutual information of the alignments, with or without groups of symbols: what is printed without
smoothing, and its limit as the smoothing constant vanishes, is the textbook mutual information of the pairs of
symbols, and the percentage is that of the entropy of the reference. -/
theorem C116_information_partial (groups : Option (List (String × List String)))
    (refMap hypMap : List (ℕ × String)) (rf hf : ℕ → String) (refs hyps : List (String × List ℕ))
    (pairs : List (String × String))
    (hp : ∀ p ∈ refs, p.1 ∈ hyps.map Prod.fst)
    (hr : ∀ x ∈ stateFrames refs hyps, dictGet refMap x.1 = .ok (rf x.1))
    (hh : ∀ x ∈ stateFrames refs hyps, dictGet hypMap x.2 = .ok (hf x.2))
    (hg : ∀ g, groups = some g → Groups g ((stateFrames refs hyps).map fun x => rf x.1))
    (hpairs : pairs = (stateFrames refs hyps).map fun x =>
      (match groups with | none => rf x.1 | some g => groupOf g (rf x.1), hf x.2))
    (hne : pairs ≠ []) :
    ∃ (t : ℝ → Tables ℝ) (I : ℝ), (∀ e, compareMain e groups refMap hypMap refs hyps = .ok (t e)) ∧
      I = mutualInfo (pairs.map Prod.fst).toFinset (pairs.map Prod.snd).toFinset
        (fun r h => (pairCount pairs r h : ℝ)) ∧
      miBits (t 0) = I ∧ Tendsto (fun e => miBits (t e)) (𝓝 0) (𝓝 I) ∧ 0 ≤ I ∧
      (I = 0 ↔ Indep (pairs.map Prod.fst).toFinset (pairs.map Prod.snd).toFinset
        fun r h => (pairCount pairs r h : ℝ)) ∧
      (2 ≤ (pairs.map Prod.fst).toFinset.card → ∃ L,
        L = 100 * I / entropy2 (pairs.map Prod.fst).toFinset (freq (pairs.map Prod.fst)) ∧
        miPercent (t 0) = L ∧ Tendsto (fun e => miPercent (t e)) (𝓝 0) (𝓝 L) ∧ 0 ≤ L ∧ L ≤ 100 ∧
        (L = 100 ↔ Determined (pairs.map Prod.fst).toFinset (pairs.map Prod.snd).toFinset
          fun r h => (pairCount pairs r h : ℝ))) := by
  obtain ⟨t, ht, htend⟩ : ∃ t : ℝ → Tables ℝ, (∀ e, compareMain e groups refMap hypMap refs hyps = .ok (t e)) ∧
      TablesTend t pairs := by
    cases groups with
    | none =>
      dsimp only at hpairs
      refine ⟨fun e => pairs.foldl (frameStep e) ⟨[], [], []⟩, fun e => ?_, frames_tend pairs⟩
      unfold compareMain
      rw [compareAlis_ok e refMap hypMap rf hf hyps refs none _ hp hr hh, hpairs]
    | some g =>
      dsimp only at hpairs
      have h1 := group_tend g ((stateFrames refs hyps).map fun x => (rf x.1, hf x.2)) (by
        rw [List.map_map]; exact hg g rfl)
      rw [List.map_map] at h1
      refine ⟨fun e => groupTables e g (((stateFrames refs hyps).map fun x => (rf x.1, hf x.2)).foldl
        (frameStep e) ⟨[], [], []⟩), fun e => ?_, by rw [hpairs]; exact h1⟩
      unfold compareMain
      rw [compareAlis_ok e refMap hypMap rf hf hyps refs none _ hp hr hh]
  obtain ⟨hm, he⟩ := mi_tendsto t pairs hne htend
  have hgood := pairs_good pairs hne
  obtain ⟨h0, hi⟩ := mutualInfo_nonneg hgood
  refine ⟨t, _, ht, rfl, eq_of_tendsto_nhds (f := fun e => miBits (t e)) hm, hm, h0, hi, fun hc => ?_⟩
  have hmarg : margX (pairs.map Prod.fst).toFinset (pairs.map Prod.snd).toFinset
      (fun r h => (pairCount pairs r h : ℝ)) = freq (pairs.map Prod.fst) := funext fun r => margX_freq pairs r
  have hpos : 0 < entropy2 (pairs.map Prod.fst).toFinset (freq (pairs.map Prod.fst)) := by
    refine entropy_pos _ _ (fun r hr => freq_pos _ _ (List.mem_toFinset.1 hr)) (freq_sum _ ?_) hc
    simpa using hne
  have htp : Tendsto (fun e => miPercent (t e)) (𝓝 0) (𝓝 (100 * mutualInfo (pairs.map Prod.fst).toFinset
      (pairs.map Prod.snd).toFinset (fun r h => (pairCount pairs r h : ℝ)) /
      entropy2 (pairs.map Prod.fst).toFinset (freq (pairs.map Prod.fst)))) :=
    (hm.const_mul 100).div he hpos.ne'
  obtain ⟨hle, heq⟩ := mutualInfo_le hgood.swap
  rw [← mutualInfo_swap] at hle heq
  have hmargs : margY (pairs.map Prod.snd).toFinset (pairs.map Prod.fst).toFinset
      (fun h r => (pairCount pairs r h : ℝ)) = freq (pairs.map Prod.fst) := by
    rw [← hmarg]
    funext u; unfold margX margY; rw [tot_comm (pairs.map Prod.fst).toFinset]
  rw [hmargs] at hle heq
  refine ⟨_, rfl, eq_of_tendsto_nhds (f := fun e => miPercent (t e)) htp, htp, by positivity, ?_, ?_⟩
  · rw [div_le_iff₀ hpos]; linarith
  · rw [div_eq_iff hpos.ne']
    have : Determined (pairs.map Prod.fst).toFinset (pairs.map Prod.snd).toFinset
        (fun r h => (pairCount pairs r h : ℝ)) ↔ Determines (pairs.map Prod.snd).toFinset
        (pairs.map Prod.fst).toFinset fun h r => (pairCount pairs r h : ℝ) := Iff.rfl
    rw [this, ← heq]
    constructor <;> intro <;> linarith

/-- Three phones in two groups, each found by its own unit: 100 %. -/
example : ∃ t, compareMain (0 : ℝ) (some [("A", ["a", "b"]), ("B", ["c"])]) [(0, "a"), (1, "b"), (2, "c")]
    [(0, "x"), (1, "y")] [("u1", [0, 1, 2])] [("u1", [0, 0, 1])] = .ok t ∧ miPercent t = 100 := by
  obtain ⟨t, I, h1, -, -, -, -, -, h2⟩ := C116_information_partial (some [("A", ["a", "b"]), ("B", ["c"])])
    [(0, "a"), (1, "b"), (2, "c")] [(0, "x"), (1, "y")] (fun n => if n = 0 then "a" else if n = 1 then "b" else "c")
    (fun n => if n = 0 then "x" else "y") [("u1", [0, 1, 2])] [("u1", [0, 0, 1])]
    [("A", "x"), ("A", "x"), ("B", "y")] (by decide +kernel) (by decide +kernel) (by decide +kernel)
    (by
      intro g hg
      cases hg
      exact ⟨by decide +kernel, by decide +kernel, by decide +kernel⟩) (by decide +kernel) (by decide)
  obtain ⟨L, -, h3, -, -, -, h4⟩ := h2 (by decide +kernel)
  refine ⟨t 0, h1 0, ?_⟩
  rw [h3, h4]
  have : ∀ p ∈ ([("A", "x"), ("A", "x"), ("B", "y")].map Prod.snd).toFinset,
      ∀ u ∈ ([("A", "x"), ("A", "x"), ("B", "y")].map Prod.fst).toFinset,
      ∀ v ∈ ([("A", "x"), ("A", "x"), ("B", "y")].map Prod.fst).toFinset,
      pairCount [("A", "x"), ("A", "x"), ("B", "y")] u p ≠ 0 →
      pairCount [("A", "x"), ("A", "x"), ("B", "y")] v p ≠ 0 → u = v := by decide +kernel
  intro p hp u hu v hv h5 h6
  exact this p hp u hu v hv (Nat.cast_ne_zero.1 h5) (Nat.cast_ne_zero.1 h6)

/-- The first utterance without hypothesis raises a `NameError`. -/
theorem C116_missing_first {F : Type} [Field F] (eps : F) (groups : Option (List (String × List String)))
    (refMap hypMap : List (ℕ × String)) (f : String) (ra : List ℕ) (refs hyps : List (String × List ℕ))
    (h : f ∉ hyps.map Prod.fst) :
    compareMain eps groups refMap hypMap ((f, ra) :: refs) hyps = .error .nameError := by
  unfold compareMain
  rw [compareAlis, find_lookup, (lookup_none hyps f).2 h]
  rfl

/-- A later utterance without hypothesis is not skipped: it is compared with the hypothesis of the utterance
before it. -/
theorem C116_missing_reused {F : Type} [Field F] (eps : F) (groups : Option (List (String × List String)))
    (refMap hypMap : List (ℕ × String)) (f g : String) (ra rb ha : List ℕ) (hyps : List (String × List ℕ))
    (hf : hyps.lookup f = some ha) (hg : g ∉ hyps.map Prod.fst) :
    compareMain eps groups refMap hypMap [(f, ra), (g, rb)] hyps =
      compareMain eps groups refMap hypMap [(f, ra), (g, rb)] (hyps ++ [(g, ha)]) := by
  have h1 : (hyps ++ [(g, ha)]).lookup f = some ha := by rw [lookup_append, hf]; rfl
  have h2 : hyps.lookup g = none := (lookup_none hyps g).2 hg
  have h3 : (hyps ++ [(g, ha)]).lookup g = some ha := by rw [lookup_append, h2]; simp
  unfold compareMain
  simp only [compareAlis, find_lookup, hf, h1, h2, h3, Option.map_some, Option.map_none]

/-- Two utterances of unrelated content: the second, which has no hypothesis, adds its frames to the table. -/
theorem C116_missing_counted :
    compareMain (0 : ℚ) none [(0, "a"), (1, "b")] [(0, "x")] [("u1", [0]), ("u2", [1])] [("u1", [0])] ≠
      compareMain (0 : ℚ) none [(0, "a"), (1, "b")] [(0, "x")] [("u1", [0])] [("u1", [0])] := by decide +kernel

/-- Symbols left out of the groups still count for the hypothesis: the mutual information printed can be
negative. -/
theorem C116_omitted_symbol_negative :
    ∃ t, compareMain (0 : ℝ) (some [("A", ["a"])]) [(0, "a"), (1, "b")] [(0, "x"), (1, "y")]
      [("u1", [0, 0, 1, 1])] [("u1", [0, 1, 0, 0])] = .ok t ∧ miBits t < 0 := by
  refine ⟨⟨[("A", [("x", 1), ("y", 1)])], [("A", 2)], [("x", 3), ("y", 1)]⟩, ?_, ?_⟩
  · simp [compareMain, compareAlis, compareFrames, dictGet, dictSet, addTo, getOr, groupTables, groupSym]
    norm_num
  · have hl : 0 < Real.log 2 := Real.log_pos (by norm_num)
    have h3 : 4 * Real.log 2 < 3 * Real.log 3 := by
      have h1 : Real.log (2 ^ 4) < Real.log (3 ^ 3) := Real.log_lt_log (by norm_num) (by norm_num)
      rw [Real.log_pow, Real.log_pow] at h1
      exact_mod_cast h1
    have e1 : Real.log (3 / (3 + 1)) = Real.log 3 - 2 * Real.log 2 := by
      rw [Real.log_div (by norm_num) (by norm_num), show (3 : ℝ) + 1 = 2 ^ 2 by norm_num, Real.log_pow]
      norm_num
    have e2 : Real.log (1 / (3 + 1)) = - (2 * Real.log 2) := by
      rw [Real.log_div (by norm_num) (by norm_num), show (3 : ℝ) + 1 = 2 ^ 2 by norm_num, Real.log_pow]
      norm_num
    have e3 : Real.log (1 / (1 + 1)) = - Real.log 2 := by
      rw [Real.log_div (by norm_num) (by norm_num), show (1 : ℝ) + 1 = 2 by norm_num]
      norm_num
    have : miBits ⟨[("A", [("x", 1), ("y", 1)])], [("A", 2)], [("x", 3), ("y", 1)]⟩ =
        (- (3 / (3 + 1)) * Real.log (3 / (3 + 1)) + - (1 / (3 + 1)) * Real.log (1 / (3 + 1))) / Real.log 2 -
        (2 / 2 * (- (1 / (1 + 1)) * Real.log (1 / (1 + 1)) + - (1 / (1 + 1)) * Real.log (1 / (1 + 1)))) /
          Real.log 2 := by
      simp [miBits, entropyBits, condEntropyBits, normalised, getOr]
    rw [this, e1, e2, e3, ← sub_div]
    refine div_neg_of_neg_of_pos ?_ hl
    linarith

end Verif.Props
