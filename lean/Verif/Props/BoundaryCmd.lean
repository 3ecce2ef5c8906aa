import Verif.Lemmas.BoundaryCmd
import Verif.Props.Scoring
import Verif.Props.Eval
import Mathlib.Algebra.Order.Field.Rat
import Mathlib.Algebra.Order.BigOperators.Group.List
import Mathlib.Tactic.FieldSimp
import Mathlib.Tactic.Positivity

/-!
# C162: the scores of the boundaries of the units
-/

namespace Verif.Props

open Verif Verif.BoundaryCmd Verif.Scoring Verif.Eval Verif.Spec Verif.EvalSpec

/-- C162: the script prints the names of the utterances whose numbers of boundaries differ, and the recall, the precision and
the f-score of one-to-one matchings of the boundaries of each utterance which no further pair of boundaries can extend. All
three are between zero and one. -/
theorem C162_scores (delta : ℤ) (ref hyp : Transcript)
    (h : ∀ p ∈ ref, ∃ t, hyp.lookup p.1 = some t ∧ Scorable p.2 t ∧ (t.length : ℤ) + delta < 1000000) :
    ∃ (out : BReport) (M : String × List String → List (ℕ × ℕ)), boundScore delta ref hyp = .ok out ∧
      (∀ p ∈ ref, Matching (boundaryFrames p.2) (boundaryFrames ((hyp.lookup p.1).getD [])) delta (M p) ∧
        MaximalMatching (boundaryFrames p.2) (boundaryFrames ((hyp.lookup p.1).getD [])) delta (M p)) ∧
      (let hits : ℚ := ((ref.map fun p => (M p).length).sum : ℕ)
      let inRef : ℚ := ((ref.map fun p => (boundaryFrames p.2).length).sum : ℕ)
      let inHyp : ℚ := ((ref.map fun p => (boundaryFrames ((hyp.lookup p.1).getD [])).length).sum : ℕ)
      out.recall = hits / inRef ∧ out.prec = hits / inHyp ∧ out.fscore = 2 * hits / (inRef + inHyp)) ∧
      (0 ≤ out.recall ∧ out.recall ≤ 1) ∧ (0 ≤ out.prec ∧ out.prec ≤ 1) ∧ (0 ≤ out.fscore ∧ out.fscore ≤ 1) ∧
      out.printed = (ref.filter fun p => (boundaryFrames p.2).length ≠
        (boundaryFrames ((hyp.lookup p.1).getD [])).length).map Prod.fst := by
  have hM : ∀ p : String × List String, ∃ M : List (ℕ × ℕ), p ∈ ref →
      getHits (boundaryFrames p.2) (boundaryFrames ((hyp.lookup p.1).getD [])) delta = .ok M.length ∧
      Matching (boundaryFrames p.2) (boundaryFrames ((hyp.lookup p.1).getD [])) delta M ∧
      MaximalMatching (boundaryFrames p.2) (boundaryFrames ((hyp.lookup p.1).getD [])) delta M := by
    intro p
    by_cases hp : p ∈ ref
    · obtain ⟨t, h1, ⟨h2, h3, h4⟩, h5⟩ := h p hp
      obtain ⟨n, hn⟩ := C55_succeeds (boundaryFrames p.2) (boundaryFrames t) delta h4
      obtain ⟨M, rfl, a, b⟩ := C55_matching _ _ delta n (fun b hb => by have := frames_le t b hb; omega) hn
      exact ⟨M, fun _ => by rw [h1]; exact ⟨hn, a, b⟩⟩
    · exact ⟨[], fun h => absurd h hp⟩
  choose M hM using hM
  have hloop := boundLoop_ok hyp delta (fun p => (M p).length) ref (fun p hp => by
    obtain ⟨t, h1, ⟨h2, h3, h4⟩, h5⟩ := h p hp
    have := (hM p hp).1
    rw [h1] at this
    exact ⟨t, h1, h2, h3, this⟩) ⟨0, 0, 0, []⟩
  simp only [zero_add, List.nil_append] at hloop
  refine ⟨_, M, by unfold boundScore; rw [hloop], fun p hp => (hM p hp).2, ?_⟩
  have hle : ∀ f : String × List String → ℕ, (∀ p ∈ ref, (M p).length ≤ f p) →
      (ref.map fun p => (M p).length).sum ≤ (ref.map f).sum := fun f hf => List.sum_le_sum hf
  have hR := hle (fun p => (boundaryFrames p.2).length) fun p hp => (matching_le (hM p hp).2.1).1
  have hH := hle (fun p => (boundaryFrames ((hyp.lookup p.1).getD [])).length) fun p hp => (matching_le (hM p hp).2.1).2
  generalize (ref.map fun p => (M p).length).sum = n at *
  generalize (ref.map fun p => (boundaryFrames p.2).length).sum = R at *
  generalize (ref.map fun p => (boundaryFrames ((hyp.lookup p.1).getD [])).length).sum = H at *
  unfold report
  dsimp only
  have er : (if R > 0 then (n : ℚ) / R else 0) = (n : ℚ) / R := by
    split
    · rfl
    · have : R = 0 := by omega
      simp [this]
  have ep : (if H > 0 then (n : ℚ) / H else 0) = (n : ℚ) / H := by
    split
    · rfl
    · have : H = 0 := by omega
      simp [this]
  rw [er, ep]
  have ef : (if (n : ℚ) / R + n / H > 0 then 2 * ((n : ℚ) / H * (n / R)) / (n / H + n / R) else 0) =
      2 * n / (R + H) := by
    by_cases hn : n = 0
    · subst hn; simp
    · have h1 : (0 : ℚ) < n := by exact_mod_cast Nat.pos_of_ne_zero hn
      have h2 : (0 : ℚ) < R := by exact_mod_cast (show 0 < R by omega)
      have h3 : (0 : ℚ) < H := by exact_mod_cast (show 0 < H by omega)
      rw [if_pos (by positivity)]
      field_simp
  rw [ef]
  have qR : (n : ℚ) ≤ R := by exact_mod_cast hR
  have qH : (n : ℚ) ≤ H := by exact_mod_cast hH
  have q0 : (0 : ℚ) ≤ n := Nat.cast_nonneg n
  have q1 : (0 : ℚ) ≤ R := Nat.cast_nonneg R
  have q2 : (0 : ℚ) ≤ H := Nat.cast_nonneg H
  exact ⟨⟨rfl, rfl, rfl⟩, ⟨by positivity, div_le_one_of_le₀ qR q1⟩, ⟨by positivity, div_le_one_of_le₀ qH q2⟩,
    ⟨by positivity, div_le_one_of_le₀ (by linarith) (by linarith)⟩, rfl⟩

/-- C162: units with the same boundaries in all the utterances have the scores one (zero when there is no
boundary at all), and no name is printed. -/
theorem C162_same (delta : ℤ) (hd : 0 ≤ delta) (ref hyp : Transcript)
    (h : ∀ p ∈ ref, p.2 ≠ [] ∧ ∃ t, hyp.lookup p.1 = some t ∧ t ≠ [] ∧ boundaryFrames t = boundaryFrames p.2 ∧
      t.length < 1000000) :
    ((∃ p ∈ ref, boundaryFrames p.2 ≠ []) → boundScore delta ref hyp = .ok ⟨[], 1, 1, 1⟩) ∧
    ((∀ p ∈ ref, boundaryFrames p.2 = []) → boundScore delta ref hyp = .ok ⟨[], 0, 0, 0⟩) := by
  have hloop := boundLoop_ok hyp delta (fun p => (boundaryFrames p.2).length) ref (fun p hp => by
    obtain ⟨h2, t, h1, h3, h4, h5⟩ := h p hp
    refine ⟨t, h1, h2, h3, ?_⟩
    rw [h4]
    exact getHits_self delta hd _ (frames_sorted _) fun b hb => by
      rw [← h4] at hb
      have := frames_le t b hb
      omega) ⟨0, 0, 0, []⟩
  simp only [zero_add, List.nil_append] at hloop
  have e1 : (ref.map fun p => (boundaryFrames ((hyp.lookup p.1).getD [])).length) =
      ref.map fun p => (boundaryFrames p.2).length := by
    refine List.map_congr_left fun p hp => ?_
    obtain ⟨_, t, h1, _, h4, _⟩ := h p hp
    rw [h1, Option.getD_some, h4]
  have e2 : (ref.filter fun p => (boundaryFrames p.2).length ≠ (boundaryFrames ((hyp.lookup p.1).getD [])).length) = [] := by
    rw [List.filter_eq_nil_iff]
    intro p hp
    obtain ⟨_, t, h1, _, h4, _⟩ := h p hp
    simp [h1, h4]
  rw [e1, e2] at hloop
  constructor
  · rintro ⟨p, hp, hne⟩
    have hpos : 0 < (ref.map fun p => (boundaryFrames p.2).length).sum := by
      refine lt_of_lt_of_le (List.length_pos_iff.2 hne) (List.single_le_sum (by simp) _ ?_)
      exact List.mem_map.2 ⟨p, hp, rfl⟩
    unfold boundScore
    rw [hloop]
    have hq : ((ref.map fun p => (boundaryFrames p.2).length).sum : ℚ) ≠ 0 := by exact_mod_cast hpos.ne'
    unfold report
    dsimp only
    rw [if_pos hpos, div_self hq]
    norm_num
  · intro hz
    have h0 : (ref.map fun p => (boundaryFrames p.2).length).sum = 0 :=
      List.sum_eq_zero fun n hn => by
        obtain ⟨p, hp, rfl⟩ := List.mem_map.1 hn
        rw [hz p hp]; rfl
    unfold boundScore
    rw [hloop]
    unfold report
    simp [h0]

/-- C162: without tolerance, the scores are one exactly when all the utterances have the same boundaries. -/
theorem C162_exact (ref hyp : Transcript)
    (h : ∀ p ∈ ref, ∃ t, hyp.lookup p.1 = some t ∧ Scorable p.2 t ∧ t.length < 1000000)
    (out : BReport) (ho : boundScore 0 ref hyp = .ok out) (h1 : out.recall = 1) (h2 : out.prec = 1) :
    ∀ p ∈ ref, (hyp.lookup p.1).map boundaryFrames = some (boundaryFrames p.2) := by
  obtain ⟨out', M, e, hM, ⟨hr, hp, _⟩, _⟩ := C162_scores 0 ref hyp fun p hp => by
    obtain ⟨t, a, b, c⟩ := h p hp
    exact ⟨t, a, b, by omega⟩
  rw [ho] at e
  obtain rfl := Except.ok.inj e
  rw [hr] at h1
  rw [hp] at h2
  have hRn := eq_of_div_eq_one h1
  have hHn := eq_of_div_eq_one h2
  have hR : (ref.map fun p => (M p).length).sum = (ref.map fun p => (boundaryFrames p.2).length).sum := by exact_mod_cast hRn
  have hH : (ref.map fun p => (M p).length).sum =
    (ref.map fun p => (boundaryFrames ((hyp.lookup p.1).getD [])).length).sum := by exact_mod_cast hHn
  have each : ∀ (l : List (String × List String)) (f g : String × List String → ℕ), (∀ p ∈ l, f p ≤ g p) →
      (l.map f).sum = (l.map g).sum → ∀ p ∈ l, f p = g p := by
    intro l f g
    induction l with
    | nil => intro _ _ p hp; simp at hp
    | cons q l ih =>
      intro hle hs p hp
      have hq := hle q (by simp)
      have hl : (l.map f).sum ≤ (l.map g).sum := List.sum_le_sum fun p hp => hle p (by simp [hp])
      simp only [List.map_cons, List.sum_cons] at hs
      rcases List.mem_cons.1 hp with rfl | hp
      · omega
      · exact ih (fun p hp => hle p (by simp [hp])) (by omega) p hp
  intro p hp
  obtain ⟨t, ht, -, -⟩ := h p hp
  have a := each ref _ _ (fun p hp => (matching_le (hM p hp).1).1) hR p hp
  have b := each ref _ _ (fun p hp => (matching_le (hM p hp).1).2) hH p hp
  have c := (hM p hp).1
  rw [ht] at b c ⊢
  rw [Option.getD_some] at b c
  rw [Option.map_some]
  congr 1
  have hsub : boundaryFrames p.2 ⊆ boundaryFrames t := by
    intro r hr
    obtain ⟨i, hi, rfl⟩ := List.mem_iff_getElem.1 hr
    have hmem : i ∈ (M p).map Prod.fst := by
      have hsubset : (M p).map Prod.fst ⊆ List.range (boundaryFrames p.2).length := by
        intro i hi
        obtain ⟨q, hq, rfl⟩ := List.mem_map.mp hi
        obtain ⟨r, _, hr, _, _⟩ := c.close q hq
        exact List.mem_range.mpr (List.getElem?_eq_some_iff.mp hr).1
      have hperm := (List.subperm_of_subset c.ref_once hsubset).perm_of_length_le (by simp [a])
      exact hperm.symm.subset (List.mem_range.2 hi)
    obtain ⟨q, hq, rfl⟩ := List.mem_map.1 hmem
    obtain ⟨r, b', h1, h2, h3⟩ := c.close q hq
    rw [List.getElem?_eq_getElem hi] at h1
    have : r = b' := by have := abs_nonpos_iff.1 h3; omega
    rw [Option.some.inj h1, this]
    exact List.mem_of_getElem? h2
  have nd : ∀ l, (boundaryFrames l).Nodup := fun l => (frames_sorted l).imp fun h => ne_of_lt h
  have hperm := (List.subperm_of_subset (nd p.2) hsub).perm_of_length_le (by omega)
  exact (hperm.symm.eq_of_pairwise (fun a b _ _ h1 h2 => le_antisymm h1 h2) ((frames_sorted t).imp le_of_lt)
    ((frames_sorted p.2).imp le_of_lt))

/-- C162: the names of the units do not matter. -/
theorem C162_names (f g : String → String) (delta : ℤ) (ref hyp : Transcript) (hr : ∀ p ∈ ref, Renames f p.2)
    (hh : ∀ p ∈ hyp, Renames g p.2) : boundScore delta (renamed f ref) (renamed g hyp) = boundScore delta ref hyp := by
  unfold boundScore
  rw [boundLoop_renamed f g delta ref hyp hr hh]

/-- C162, error branches: the first utterance of the reference which cannot be scored raises. -/
theorem C162_errors (delta : ℤ) (pre post hyp : Transcript) (utt : String) (r : List String)
    (h : ∀ p ∈ pre, ∃ t, hyp.lookup p.1 = some t ∧ Scorable p.2 t) :
    (r = [] → boundScore delta (pre ++ (utt, r) :: post) hyp = .error .indexError) ∧
    (r ≠ [] → hyp.lookup utt = none → boundScore delta (pre ++ (utt, r) :: post) hyp = .error .keyError) ∧
    (r ≠ [] → hyp.lookup utt = some [] → boundScore delta (pre ++ (utt, r) :: post) hyp = .error .indexError) ∧
    (∀ t, r ≠ [] → hyp.lookup utt = some t → t ≠ [] → boundaryFrames r = [] → boundaryFrames t ≠ [] →
      boundScore delta (pre ++ (utt, r) :: post) hyp = .error .valueError) := by
  have hpre : ∃ acc, boundLoop hyp delta pre ⟨0, 0, 0, []⟩ = .ok acc := by
    have hn : ∀ p : String × List String, ∃ n, p ∈ pre →
        getHits (boundaryFrames p.2) (boundaryFrames ((hyp.lookup p.1).getD [])) delta = .ok n := by
      intro p
      by_cases hp : p ∈ pre
      · obtain ⟨t, h1, h2, h3, h4⟩ := h p hp
        obtain ⟨n, hn⟩ := C55_succeeds (boundaryFrames p.2) (boundaryFrames t) delta h4
        exact ⟨n, fun _ => by rw [h1]; exact hn⟩
      · exact ⟨0, fun h => absurd h hp⟩
    choose n hn using hn
    exact ⟨_, boundLoop_ok hyp delta n pre (fun p hp => by
      obtain ⟨t, h1, h2, h3, h4⟩ := h p hp
      have := hn p hp
      rw [h1] at this
      exact ⟨t, h1, h2, h3, this⟩) _⟩
  obtain ⟨acc, hacc⟩ := hpre
  have key : ∀ e, boundLoop hyp delta ((utt, r) :: post) acc = .error e →
      boundScore delta (pre ++ (utt, r) :: post) hyp = .error e := by
    intro e he
    unfold boundScore
    rw [boundLoop_append, hacc]
    dsimp only
    rw [he]
  refine ⟨fun hr => key _ ?_, fun hr hl => key _ ?_, fun hr hl => key _ ?_, fun t hr hl ht h1 h2 => key _ ?_⟩
  · subst hr; rfl
  · rw [boundLoop, boundaries_frames r hr]
    dsimp only
    rw [dictGet_lookup, hl]
  · rw [boundLoop, boundaries_frames r hr]
    dsimp only
    rw [dictGet_lookup, hl]
    rfl
  · rw [boundLoop, boundaries_frames r hr]
    dsimp only
    rw [dictGet_lookup, hl]
    dsimp only
    rw [boundaries_frames t ht]
    dsimp only
    rw [(C55_fails_iff _ _ delta).2 ⟨h1, h2⟩]

/-- C162, error branch: an empty line in one of the files. -/
theorem C162_empty_line (delta : ℤ) (mapping : Option (List (List String))) (refFile hypFile : List (List String))
    (h : [] ∈ refFile ∨ [] ∈ hypFile) : boundMain delta mapping refFile hypFile = .error .indexError := by
  unfold boundMain
  by_cases hr : [] ∈ refFile
  · rw [loadTranscript_eq, if_pos hr]
  · rw [loadTranscript_eq, if_neg hr, loadTranscript_eq, if_pos (h.resolve_left hr)]

/-- C162 without mapping: the files are scored as they are (the last line of an utterance counts). -/
theorem C162_files (delta : ℤ) (refFile hypFile : List (List String)) (hr : [] ∉ refFile) (hh : [] ∉ hypFile) :
    ∃ ref hyp, boundMain delta none refFile hypFile = boundScore delta ref hyp ∧
      (ref.map Prod.fst).Nodup ∧ (hyp.map Prod.fst).Nodup ∧ (∀ u, ref.lookup u = saidOf refFile u) ∧
      ∀ u, hyp.lookup u = saidOf hypFile u := by
  obtain ⟨ref, e1, n1, l1⟩ := (C111_load refFile).2 hr
  obtain ⟨hyp, e2, n2, l2⟩ := (C111_load hypFile).2 hh
  refine ⟨ref, hyp, ?_, n1, n2, l1, l2⟩
  unfold boundMain
  rw [e1, e2]

theorem load_nodup (file : List (List String)) (tr : Transcript) (h : loadTranscript file [] = .ok tr) :
    (tr.map Prod.fst).Nodup := by
  by_cases hf : [] ∈ file
  · rw [(C111_load file).1 hf] at h
    cases h
  · obtain ⟨tr', e, n, _⟩ := (C111_load file).2 hf
    rw [h] at e
    rw [Except.ok.inj e]
    exact n

/-- C162 with a mapping, what is proved: if the mapping has all the units of the hypothesis, or (with those of the hypothesis) all
those of the reference, the scores are those of the units replaced by their images, different unknown units having
different new names.  The missing part, for other unknown units, is false (`C162_merged`). -/
theorem C162_mapping_partial (delta : ℤ) (lines refFile hypFile : List (List String)) (ref hyp : Transcript)
    (hr : loadTranscript refFile [] = .ok ref) (hh : loadTranscript hypFile [] = .ok hyp)
    (hk : (∀ p ∈ hyp, ∀ t ∈ p.2, mapsTo lines t ≠ none) ∨
      ∀ p ∈ ref, ∀ t ∈ p.2, mapsTo lines t ≠ none ∨ ∃ q ∈ hyp, t ∈ q.2) :
    ∃ g : String → String, boundMain delta (some lines) refFile hypFile = boundScore delta (renamed g ref) (renamed g hyp) ∧
      (∀ t v, mapsTo lines t = some v → g t = v) ∧
      ∀ s t, (∃ p ∈ ref ++ hyp, s ∈ p.2) → (∃ p ∈ ref ++ hyp, t ∈ p.2) → mapsTo lines s = none → mapsTo lines t = none →
        (g s = g t → s = t) ∧ ∃ i, g s = "<oov_" ++ Nat.repr i ++ ">" := by
  have hn := load_nodup _ _ hr
  have hn' := load_nodup _ _ hh
  have hm : ∀ t, (loadMapping lines []).lookup t = mapsTo lines t := fun t => C113_load lines t
  simp only [← hm] at hk ⊢
  have inj : ∀ (m m' : List (String × String)) (oov : ℕ), Extends m m' oov → ∀ s t, m'.lookup s ≠ none → m'.lookup t ≠ none →
      m.lookup s = none → m.lookup t = none →
      ((m'.lookup s).getD "" = (m'.lookup t).getD "" → s = t) ∧ ∃ i, (m'.lookup s).getD "" = "<oov_" ++ Nat.repr i ++ ">" := by
    intro m m' oov he s t h1 h2 h3 h4
    obtain ⟨v, hv⟩ := Option.ne_none_iff_exists'.1 h1
    obtain ⟨w, hw⟩ := Option.ne_none_iff_exists'.1 h2
    rw [hv, hw]
    refine ⟨fun e => he.inj s t v h3 h4 hv (by rw [hw]; exact congrArg some e.symm), ?_⟩
    obtain ⟨i, _, _, rfl⟩ := he.new s v h3 hv
    exact ⟨i, rfl⟩
  rcases hk with hk | hk
  · obtain ⟨m', oov, e, he, hd⟩ := mapTransOov_spec (loadMapping lines []) ref hn
    have known : ∀ t, (∃ p ∈ ref ++ hyp, t ∈ p.2) → m'.lookup t ≠ none := by
      rintro t ⟨p, hp, ht⟩
      rcases List.mem_append.1 hp with hp | hp
      · exact (hd t).2 (.inr ⟨p, hp, ht⟩)
      · exact (hd t).2 (.inl (hk p hp t ht))
    refine ⟨fun t => (m'.lookup t).getD "", ?_, fun t v h => congrArg (Option.getD · "") (he.old t v h),
      fun s t hs ht h3 h4 => inj _ m' oov he s t (known s hs) (known t ht) h3 h4⟩
    unfold boundMain
    rw [hr, hh]
    dsimp only
    rw [mapTransOov_known _ hyp hn' hk]
    dsimp only
    rw [e]
    dsimp only
    congr 1
    refine List.map_congr_left fun p hp => ?_
    congr 1
    refine List.map_congr_left fun t ht => ?_
    obtain ⟨v, hv⟩ := Option.ne_none_iff_exists'.1 (hk p hp t ht)
    rw [hv, he.old t v hv]
  · obtain ⟨m', oov, e, he, hd⟩ := mapTransOov_spec (loadMapping lines []) hyp hn'
    have known : ∀ t, (∃ p ∈ ref ++ hyp, t ∈ p.2) → m'.lookup t ≠ none := by
      rintro t ⟨p, hp, ht⟩
      rcases List.mem_append.1 hp with hp | hp
      · exact (hd t).2 (hk p hp t ht)
      · exact (hd t).2 (.inr ⟨p, hp, ht⟩)
    refine ⟨fun t => (m'.lookup t).getD "", ?_, fun t v h => congrArg (Option.getD · "") (he.old t v h),
      fun s t hs ht h3 h4 => inj _ m' oov he s t (known s hs) (known t ht) h3 h4⟩
    unfold boundMain
    rw [hr, hh]
    dsimp only
    rw [e]
    dsimp only
    rw [mapTransOov_known _ ref hn fun p hp t ht => known t ⟨p, List.mem_append_left _ hp, ht⟩]

/-- C162 fails for other unknown units: the new names are counted again from one for the reference, while those of the hypothesis
stay in the mapping.  With a mapping which has none of the units, `a` and `c` of the reference get the same name: a boundary
of the reference is lost, and the recall is one instead of one half. -/
theorem C162_merged :
    boundMain 2 (some []) [["u", "b", "a", "c"]] [["u", "c", "b", "b"]] = .ok ⟨[], 1, 1, 1⟩ ∧
    boundMain 2 none [["u", "b", "a", "c"]] [["u", "c", "b", "b"]] = .ok ⟨["u"], 1 / 2, 1, 2 / 3⟩ := by decide +kernel

/-! ## Examples -/

/-- Two utterances, a boundary which is two frames late, a boundary missed. -/
def boundRef : Transcript := [("u", ["a", "a", "b", "b", "b", "b", "c"]), ("v", ["a"])]

def boundHyp : Transcript := [("v", ["1"]), ("w", []), ("u", ["2", "2", "2", "2", "1", "1", "1"])]

theorem boundRef_ok : ∀ p ∈ boundRef, ∃ t, boundHyp.lookup p.1 = some t ∧ Scorable p.2 t ∧ t.length < 1000 := by
  intro p hp
  simp only [boundRef, List.mem_cons, List.not_mem_nil, or_false] at hp
  rcases hp with rfl | rfl
  · exact ⟨["2", "2", "2", "2", "1", "1", "1"], by decide +kernel, ⟨by simp, by simp, .inl (by decide +kernel)⟩, by simp⟩
  · exact ⟨["1"], by decide +kernel, ⟨by simp, by simp, .inr (by decide +kernel)⟩, by simp⟩

example : boundScore 2 boundRef boundHyp = .ok ⟨["u"], 1 / 2, 1, 2 / 3⟩ := by decide +kernel

example : ∃ out, boundScore 2 boundRef boundHyp = .ok out ∧ out.fscore ≤ 1 := by
  obtain ⟨out, _, e, _, _, _, _, h, _⟩ := C162_scores 2 boundRef boundHyp fun p hp => by
    obtain ⟨t, a, b, c⟩ := boundRef_ok p hp
    exact ⟨t, a, b, by omega⟩
  exact ⟨out, e, h.2⟩

example : boundScore 0 boundRef (renamed (fun t => t ++ "'") boundRef) = .ok ⟨[], 1, 1, 1⟩ := by
  refine (C162_same 0 le_rfl _ _ fun p hp => ?_).1 ⟨_, List.mem_cons_self, by decide +kernel⟩
  simp only [boundRef, List.mem_cons, List.not_mem_nil, or_false] at hp
  rcases hp with rfl | rfl
  · exact ⟨by simp, ["a'", "a'", "b'", "b'", "b'", "b'", "c'"], by decide +kernel, by simp, by decide +kernel, by simp⟩
  · exact ⟨by simp, ["a'"], by decide +kernel, by simp, by decide +kernel, by simp⟩

example (out : BReport) (h : boundScore 0 boundRef boundHyp = .ok out) (h1 : out.recall = 1) (h2 : out.prec = 1) : False := by
  have := C162_exact boundRef boundHyp (fun p hp => by
    obtain ⟨t, a, b, c⟩ := boundRef_ok p hp
    exact ⟨t, a, b, by omega⟩) out h h1 h2 _ List.mem_cons_self
  revert this
  decide +kernel

example : boundScore 2 boundRef (renamed (fun t => "unit" ++ t) boundHyp) = boundScore 2 boundRef boundHyp := by
  have := C162_names id (fun t => "unit" ++ t) 2 boundRef boundHyp (fun p _ x _ y _ h => h)
    (fun p _ x _ y _ h => by simpa using h)
  simpa [renamed] using this

/-- An utterance of the reference without boundary, and a hypothesis with one. -/
example : boundScore 2 (boundRef ++ [("x", ["a", "a"])]) (boundHyp ++ [("x", ["1", "2"])]) = .error .valueError := by
  refine (C162_errors 2 boundRef [] _ "x" ["a", "a"] fun p hp => ?_).2.2.2 ["1", "2"] (by simp) (by decide +kernel) (by simp)
    (by decide +kernel) (by decide +kernel)
  obtain ⟨t, a, b, _⟩ := boundRef_ok p hp
  exact ⟨t, by rw [lookup_append, a]; rfl, b⟩

example : boundMain 2 none [["u", "a", "b"], []] [["u", "a", "b"]] = .error .indexError :=
  C162_empty_line _ _ _ _ (.inl (by simp))

example : ∃ ref hyp, boundMain 1 none [["u", "a"], ["u", "a", "b"]] [["u", "1", "2"]] = boundScore 1 ref hyp ∧
    ref.lookup "u" = some ["a", "b"] := by
  obtain ⟨ref, hyp, e, _, _, h, _⟩ := C162_files 1 [["u", "a"], ["u", "a", "b"]] [["u", "1", "2"]] (by simp) (by simp)
  exact ⟨ref, hyp, e, by rw [h]; decide +kernel⟩

example : ∃ g : String → String, boundMain 1 (some [["1", "a"], ["2", "a"]]) [["u", "a", "b"]] [["u", "1", "2"]] =
    boundScore 1 [("u", [g "a", g "b"])] [("u", ["a", "a"])] := by
  obtain ⟨g, e, h, _⟩ := C162_mapping_partial 1 [["1", "a"], ["2", "a"]] [["u", "a", "b"]] [["u", "1", "2"]]
    [("u", ["a", "b"])] [("u", ["1", "2"])] (by decide +kernel) (by decide +kernel) (.inl (by
      intro p hp t ht
      simp only [List.mem_cons, List.not_mem_nil, or_false] at hp
      subst hp
      simp only [List.mem_cons, List.not_mem_nil, or_false] at ht
      rcases ht with rfl | rfl <;> decide +kernel))
  refine ⟨g, ?_⟩
  rw [e]
  simp [renamed, h "1" "a" (by decide +kernel), h "2" "a" (by decide +kernel)]

end Verif.Props
