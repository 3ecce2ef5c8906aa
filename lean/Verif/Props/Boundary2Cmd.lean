import Verif.Model.Boundary2Cmd
import Verif.Props.BoundaryCmd
import Verif.Lemmas.EvalInfo

/-!
# C174: the scores of the alternative boundary script
-/

namespace Verif.Props

open Verif Verif.Boundary2Cmd Verif.BoundaryCmd Verif.Scoring Verif.Eval Verif.Spec Verif.EvalSpec

/-! ## Hits of identical boundaries -/

theorem hits2_self (delta : ℤ) (hd : 0 ≤ delta) (pre bs : List ℤ) (hs : (pre ++ bs).Pairwise (· < ·)) (n : ℕ) :
    hits2Loop delta (pre ++ bs) bs.length pre.length (List.replicate pre.length 1000000 ++ bs) n = .ok (n + bs.length) := by
  induction bs generalizing pre n with
  | nil => rfl
  | cons b bs ih =>
    rw [List.length_cons, hits2Loop, List.getElem?_append_right (by simp)]
    simp only [List.length_replicate, Nat.sub_self, List.getElem?_cons_zero]
    obtain ⟨i, d, e⟩ := argmin_ne_nil (l := (pre ++ b :: bs).map fun h => |b - h|) (by simp)
    obtain ⟨e1, e2⟩ := argmin_ok e
    have hle : d ≤ 0 := e2 0 (List.mem_map.2 ⟨b, by simp, by simp⟩)
    rw [List.getElem?_map, Option.map_eq_some_iff] at e1
    obtain ⟨r, hr, hrd⟩ := e1
    have hd0 : |b - r| = 0 := le_antisymm (hrd.trans_le hle) (abs_nonneg _)
    have hbr : r = b := by have := abs_eq_zero.1 hd0; omega
    subst hbr
    have hi : i = pre.length := by
      have hnd : (pre ++ r :: bs).Nodup := hs.imp fun h => ne_of_lt h
      have h2 : (pre ++ r :: bs)[pre.length]? = some r := by simp
      obtain ⟨l1, g1⟩ := List.getElem?_eq_some_iff.1 hr
      obtain ⟨l2, g2⟩ := List.getElem?_eq_some_iff.1 h2
      exact (List.Nodup.getElem_inj_iff hnd).1 (g1.trans g2.symm)
    subst hi
    rw [e]
    dsimp only
    rw [if_pos (hle.trans hd), if_pos (by simp)]
    have hset : (List.replicate pre.length (1000000 : ℤ) ++ r :: bs).set pre.length 1000000 =
        List.replicate (pre ++ [r]).length 1000000 ++ bs := by
      rw [List.set_append_right _ _ (by simp)]
      simp [List.replicate_succ']
    have := ih (pre ++ [r]) (by simpa using hs) (n + 1)
    rw [hset]
    simp only [List.append_assoc, List.singleton_append, List.length_append, List.length_singleton] at this ⊢
    rw [this]
    congr 1
    omega

theorem getHits2_self (delta : ℤ) (hd : 0 ≤ delta) (bs : List ℤ) (hs : bs.Pairwise (· < ·)) :
    getHits2 bs bs delta = .ok bs.length := by
  have := hits2_self delta hd [] bs hs 0
  simpa [getHits2] using this

theorem bound2Loop_ok (hyp : Transcript) (delta : ℤ) (n : String × List String → ℕ) (ref : Transcript)
    (h : ∀ p ∈ ref, ∃ t, hyp.lookup p.1 = some t ∧ p.2 ≠ [] ∧ t ≠ [] ∧
      getHits2 (boundaryFrames p.2) (boundaryFrames t) delta = .ok (n p)) (acc : B2Acc) :
    bound2Loop hyp delta ref acc = .ok ⟨acc.hits + (ref.map n).sum,
      acc.refCount + (ref.map fun p => (boundaryFrames p.2).length).sum,
      acc.hypCount + (ref.map fun p => (boundaryFrames ((hyp.lookup p.1).getD [])).length).sum⟩ := by
  induction ref generalizing acc with
  | nil => simp [bound2Loop]
  | cons p ref ih =>
    obtain ⟨utt, refT⟩ := p
    obtain ⟨t, h1, h2, h3, h4⟩ := h _ List.mem_cons_self
    rw [bound2Loop, boundaries_frames _ h2]
    dsimp only at h1 h4 ⊢
    rw [dictGet_lookup, h1]
    dsimp only
    rw [boundaries_frames _ h3]
    dsimp only
    rw [h4]
    dsimp only
    rw [ih fun p hp => h p (List.mem_cons_of_mem _ hp)]
    congr 1
    simp only [List.map_cons, List.sum_cons, h1, Option.getD_some]
    simp [add_assoc]

theorem bound2Loop_append (hyp : Transcript) (delta : ℤ) (pre post : Transcript) (acc : B2Acc) :
    bound2Loop hyp delta (pre ++ post) acc =
      match bound2Loop hyp delta pre acc with
      | .error e => .error e
      | .ok acc => bound2Loop hyp delta post acc := by
  induction pre generalizing acc with
  | nil => rfl
  | cons p pre ih =>
    obtain ⟨utt, refT⟩ := p
    rw [List.cons_append, bound2Loop, bound2Loop]
    cases boundaries refT with
    | error e => rfl
    | ok rb =>
      dsimp only
      cases Pipeline.dictGet hyp utt with
      | error e => rfl
      | ok ht =>
        dsimp only
        cases boundaries ht with
        | error e => rfl
        | ok hb =>
          dsimp only
          cases getHits2 rb hb delta with
          | error e => rfl
          | ok k =>
            dsimp only
            exact ih _

/-- What a successful loop went through. -/
theorem bound2Loop_inv (hyp : Transcript) (delta : ℤ) (ref : Transcript) (acc out : B2Acc)
    (h : bound2Loop hyp delta ref acc = .ok out) :
    ∃ n : String × List String → ℕ, ∀ p ∈ ref, ∃ t, hyp.lookup p.1 = some t ∧ p.2 ≠ [] ∧ t ≠ [] ∧
      getHits2 (boundaryFrames p.2) (boundaryFrames t) delta = .ok (n p) := by
  have key : ∀ p ∈ ref, ∃ m : ℕ, ∃ t, hyp.lookup p.1 = some t ∧ p.2 ≠ [] ∧ t ≠ [] ∧
      getHits2 (boundaryFrames p.2) (boundaryFrames t) delta = .ok m := by
    induction ref generalizing acc with
    | nil => simp
    | cons p ref ih =>
      obtain ⟨utt, refT⟩ := p
      rw [bound2Loop] at h
      by_cases h2 : refT = []
      · subst h2
        exact absurd h (by simp [boundaries])
      rw [boundaries_frames _ h2] at h
      dsimp only at h
      rw [dictGet_lookup] at h
      cases hl : hyp.lookup utt with
      | none => rw [hl] at h; exact absurd h (by simp)
      | some t =>
        rw [hl] at h
        dsimp only at h
        by_cases h3 : t = []
        · subst h3
          exact absurd h (by simp [boundaries])
        rw [boundaries_frames _ h3] at h
        dsimp only at h
        cases hg : getHits2 (boundaryFrames refT) (boundaryFrames t) delta with
        | error e => rw [hg] at h; exact absurd h (by simp)
        | ok m =>
          rw [hg] at h
          intro q hq
          rcases List.mem_cons.1 hq with rfl | hq
          · exact ⟨m, t, hl, h2, h3, hg⟩
          · exact ih _ h q hq
  refine ⟨fun p => if hp : p ∈ ref then (key p hp).choose else 0, fun p hp => ?_⟩
  beta_reduce
  rw [dif_pos hp]
  exact (key p hp).choose_spec

/-! ## The property -/

/-- **C174.** Whenever the script prints scores: every utterance of the reference has a hypothesis, both not empty; the recall and the
precision are the hits over the boundaries of the reference and of the hypothesis, the f-score is their harmonic mean; all are
positive, and the recall is at most one. -/
theorem C174_scores_partial (delta : ℤ) (ref hyp : Transcript) (out : B2Report) (h : bound2Score delta ref hyp = .ok out) :
    ∃ n : String × List String → ℕ,
      (∀ p ∈ ref, ∃ t, hyp.lookup p.1 = some t ∧ p.2 ≠ [] ∧ t ≠ [] ∧
        getHits2 (boundaryFrames p.2) (boundaryFrames t) delta = .ok (n p) ∧ n p ≤ (boundaryFrames p.2).length) ∧
      (let hits : ℚ := ((ref.map n).sum : ℕ)
      let inRef : ℚ := ((ref.map fun p => (boundaryFrames p.2).length).sum : ℕ)
      let inHyp : ℚ := ((ref.map fun p => (boundaryFrames ((hyp.lookup p.1).getD [])).length).sum : ℕ)
      out.recall = hits / inRef ∧ out.prec = hits / inHyp ∧ out.fscore = 2 * hits / (inRef + inHyp)) ∧
      (0 < out.recall ∧ out.recall ≤ 1) ∧ 0 < out.prec ∧ 0 < out.fscore := by
  unfold bound2Score at h
  cases hl : bound2Loop hyp delta ref ⟨0, 0, 0⟩ with
  | error e => rw [hl] at h; exact absurd h (by simp)
  | ok acc =>
    rw [hl] at h
    dsimp only at h
    obtain ⟨n, hn⟩ := bound2Loop_inv hyp delta ref _ _ hl
    have he := bound2Loop_ok hyp delta n ref hn ⟨0, 0, 0⟩
    rw [hl] at he
    simp only [zero_add] at he
    have hle : ∀ p ∈ ref, n p ≤ (boundaryFrames p.2).length := fun p hp => by
      obtain ⟨t, _, _, _, hg⟩ := hn p hp
      exact C56_bound_by_reference_partial _ _ _ _ hg
    refine ⟨n, fun p hp => ?_, ?_⟩
    · obtain ⟨t, a, b, c, d⟩ := hn p hp
      exact ⟨t, a, b, c, d, hle p hp⟩
    have hR : (ref.map n).sum ≤ (ref.map fun p => (boundaryFrames p.2).length).sum := List.sum_le_sum hle
    rw [Except.ok.inj he] at h
    generalize (ref.map n).sum = k at *
    generalize (ref.map fun p => (boundaryFrames p.2).length).sum = R at *
    generalize (ref.map fun p => (boundaryFrames ((hyp.lookup p.1).getD [])).length).sum = H at *
    unfold report2 at h
    dsimp only at h
    split_ifs at h with h1 h2 h3
    have e := Except.ok.inj h
    subst e
    dsimp only
    have qR : (k : ℚ) ≤ R := by exact_mod_cast hR
    have r0 : (0 : ℚ) < R := by exact_mod_cast Nat.pos_of_ne_zero h1
    have h0 : (0 : ℚ) < H := by exact_mod_cast Nat.pos_of_ne_zero h2
    have k0 : (0 : ℚ) < k := by
      rcases Nat.eq_zero_or_pos k with rfl | hk
      · exact absurd (by simp) h3
      · exact_mod_cast hk
    refine ⟨⟨rfl, rfl, ?_⟩, ⟨by positivity, div_le_one_of_le₀ qR r0.le⟩, by positivity, by positivity⟩
    field_simp

/-- **C174 (negation): precision.** One boundary of the hypothesis near two of the reference counts twice: the precision is 200%, the
f-score 133%. -/
theorem C174_precision_above_one :
    bound2Score 2 [("u", ["a", "b", "c"])] [("u", ["1", "2", "2"])] = .ok ⟨1, 2, 4 / 3⟩ ∧
    boundScore 2 [("u", ["a", "b", "c"])] [("u", ["1", "2", "2"])] = .ok ⟨["u"], 1 / 2, 1, 2 / 3⟩ := by decide +kernel

/-- **C174.** Units with the same boundaries in all the utterances have the scores one. -/
theorem C174_same (delta : ℤ) (hd : 0 ≤ delta) (ref hyp : Transcript)
    (h : ∀ p ∈ ref, p.2 ≠ [] ∧ ∃ t, hyp.lookup p.1 = some t ∧ t ≠ [] ∧ boundaryFrames t = boundaryFrames p.2)
    (hb : ∃ p ∈ ref, boundaryFrames p.2 ≠ []) : bound2Score delta ref hyp = .ok ⟨1, 1, 1⟩ := by
  have hloop := bound2Loop_ok hyp delta (fun p => (boundaryFrames p.2).length) ref (fun p hp => by
    obtain ⟨h2, t, h1, h3, h4⟩ := h p hp
    refine ⟨t, h1, h2, h3, ?_⟩
    rw [h4]
    exact getHits2_self delta hd _ (frames_sorted _)) ⟨0, 0, 0⟩
  simp only [zero_add] at hloop
  have e1 : (ref.map fun p => (boundaryFrames ((hyp.lookup p.1).getD [])).length) =
      ref.map fun p => (boundaryFrames p.2).length := by
    refine List.map_congr_left fun p hp => ?_
    obtain ⟨_, t, h1, _, h4⟩ := h p hp
    rw [h1, Option.getD_some, h4]
  rw [e1] at hloop
  obtain ⟨p, hp, hne⟩ := hb
  have hpos : 0 < (ref.map fun p => (boundaryFrames p.2).length).sum := by
    refine lt_of_lt_of_le (List.length_pos_iff.2 hne) (List.single_le_sum (by simp) _ ?_)
    exact List.mem_map.2 ⟨p, hp, rfl⟩
  unfold bound2Score
  rw [hloop]
  have hq : ((ref.map fun p => (boundaryFrames p.2).length).sum : ℚ) ≠ 0 := by exact_mod_cast hpos.ne'
  unfold report2
  dsimp only
  rw [if_neg hpos.ne', if_neg hpos.ne', div_self hq]
  norm_num

/-- **C174, error branches.** No boundary is found: `ZeroDivisionError` instead of scores of zero. -/
theorem C174_no_hit (delta : ℤ) (ref hyp : Transcript)
    (h : ∀ p ∈ ref, ∃ t, hyp.lookup p.1 = some t ∧ p.2 ≠ [] ∧ t ≠ [] ∧
      getHits2 (boundaryFrames p.2) (boundaryFrames t) delta = .ok 0) : bound2Score delta ref hyp = .error .zeroDivision := by
  have hloop := bound2Loop_ok hyp delta (fun _ => 0) ref h ⟨0, 0, 0⟩
  have hz : (ref.map fun _ => 0).sum = 0 := by simp
  unfold bound2Score
  rw [hloop, hz]
  unfold report2
  dsimp only
  split_ifs with h1 h2 h3
  · rfl
  · rfl
  · rfl
  · exact absurd (by simp) h3

/-- Boundaries further apart than `delta` are not hits. -/
theorem far_hits2 (delta : ℤ) (hyp : List ℤ) (hne : hyp ≠ []) (m k : ℕ) (ref : List ℤ) (c : ℕ)
    (hf : ∀ b ∈ ref, ∀ h ∈ hyp, delta < |b - h|) : hits2Loop delta hyp m k ref c = .ok c := by
  induction m generalizing k with
  | zero => rfl
  | succ m ih =>
    rw [hits2Loop]
    cases hk : ref[k]? with
    | none => rfl
    | some b =>
      dsimp only
      obtain ⟨i, d, e⟩ := argmin_ne_nil (l := hyp.map fun h => |b - h|) (by simpa using hne)
      rw [e]
      dsimp only
      obtain ⟨e1, _⟩ := argmin_ok e
      rw [List.getElem?_map, Option.map_eq_some_iff] at e1
      obtain ⟨r, hr, hrd⟩ := e1
      have := hf b (List.mem_of_getElem? hk) r (List.mem_of_getElem? hr)
      rw [if_neg (by omega)]
      exact ih _

/-- **C174, error branches.** In particular when all the boundaries of the hypothesis are too far from those of the reference, or
when no utterance of the reference has a boundary. -/
theorem C174_nothing_matches (delta : ℤ) (ref hyp : Transcript)
    (h : ∀ p ∈ ref, ∃ t, hyp.lookup p.1 = some t ∧ p.2 ≠ [] ∧ t ≠ [] ∧ (boundaryFrames t ≠ [] ∨ boundaryFrames p.2 = []) ∧
      ∀ b ∈ boundaryFrames p.2, ∀ c ∈ boundaryFrames t, delta < |b - c|) :
    bound2Score delta ref hyp = .error .zeroDivision := by
  refine C174_no_hit delta ref hyp fun p hp => ?_
  obtain ⟨t, a, b, c, d, e⟩ := h p hp
  refine ⟨t, a, b, c, ?_⟩
  rcases d with d | d
  · exact far_hits2 delta _ d _ _ _ _ e
  · rw [d]
    rfl

/-- **C174, error branches.** The first utterance of the reference that raises: without frames, without hypothesis, with an empty
hypothesis, with boundaries while the hypothesis has none. -/
theorem C174_errors (delta : ℤ) (pre post hyp : Transcript) (utt : String) (r : List String) (acc : B2Acc)
    (hp : bound2Loop hyp delta pre ⟨0, 0, 0⟩ = .ok acc) :
    (r = [] → bound2Score delta (pre ++ (utt, r) :: post) hyp = .error .indexError) ∧
    (r ≠ [] → hyp.lookup utt = none → bound2Score delta (pre ++ (utt, r) :: post) hyp = .error .keyError) ∧
    (r ≠ [] → hyp.lookup utt = some [] → bound2Score delta (pre ++ (utt, r) :: post) hyp = .error .indexError) ∧
    (∀ t, r ≠ [] → hyp.lookup utt = some t → t ≠ [] → boundaryFrames r ≠ [] → boundaryFrames t = [] →
      bound2Score delta (pre ++ (utt, r) :: post) hyp = .error .valueError) := by
  have key : ∀ e, bound2Loop hyp delta ((utt, r) :: post) acc = .error e →
      bound2Score delta (pre ++ (utt, r) :: post) hyp = .error e := by
    intro e he
    unfold bound2Score
    rw [bound2Loop_append, hp]
    dsimp only
    rw [he]
  refine ⟨fun hr => key _ ?_, fun hr hl => key _ ?_, fun hr hl => key _ ?_, fun t hr hl ht h1 h2 => key _ ?_⟩
  · subst hr; rfl
  · rw [bound2Loop, boundaries_frames r hr]
    dsimp only
    rw [dictGet_lookup, hl]
  · rw [bound2Loop, boundaries_frames r hr]
    dsimp only
    rw [dictGet_lookup, hl]
    rfl
  · rw [bound2Loop, boundaries_frames r hr]
    dsimp only
    rw [dictGet_lookup, hl]
    dsimp only
    rw [boundaries_frames t ht]
    dsimp only
    rw [h2]
    cases hb : boundaryFrames r with
    | nil => exact absurd hb h1
    | cons b bs => rfl

/-- **C174 (negation): more boundaries in the hypothesis.** A correct boundary after two wrong ones raises `IndexError`, and after one
wrong boundary it erases the next boundary of the reference: the recall is 1/2 although all boundaries of the reference were found. -/
theorem C174_insertions :
    bound2Score 0 [("u", ["a", "a", "a", "b"])] [("u", ["1", "2", "3", "4"])] = .error .indexError ∧
    bound2Score 0 [("u", ["a", "a", "b", "c"])] [("u", ["1", "2", "3", "4"])] = .ok ⟨1 / 2, 1 / 3, 2 / 5⟩ ∧
    boundScore 0 [("u", ["a", "a", "b", "c"])] [("u", ["1", "2", "3", "4"])] = .ok ⟨["u"], 1, 2 / 3, 4 / 5⟩ := by decide +kernel

/-- **C174: files.** Without mapping the files are scored as they are (the last line of an utterance counts); an empty line in one of
the files raises `IndexError`. -/
theorem C174_files (delta : ℤ) (refFile hypFile : List (List String)) :
    ([] ∉ refFile → [] ∉ hypFile → ∃ ref hyp, bound2Main delta none refFile hypFile = bound2Score delta ref hyp ∧
      (ref.map Prod.fst).Nodup ∧ (hyp.map Prod.fst).Nodup ∧ (∀ u, ref.lookup u = saidOf refFile u) ∧
      ∀ u, hyp.lookup u = saidOf hypFile u) ∧
    (([] ∈ refFile ∨ [] ∈ hypFile) → ∀ mapping, bound2Main delta mapping refFile hypFile = .error .indexError) := by
  constructor
  · intro hr hh
    obtain ⟨ref, e1, n1, l1⟩ := (C111_load refFile).2 hr
    obtain ⟨hyp, e2, n2, l2⟩ := (C111_load hypFile).2 hh
    refine ⟨ref, hyp, ?_, n1, n2, l1, l2⟩
    unfold bound2Main
    rw [e1, e2]
  · intro h mapping
    unfold bound2Main
    by_cases hr : [] ∈ refFile
    · rw [loadTranscript_eq, if_pos hr]
    · rw [loadTranscript_eq, if_neg hr, loadTranscript_eq, if_pos (h.resolve_left hr)]

/-- The units of an utterance replaced by what the mapping says of them; those it does not mention are removed. -/
def mapUnits (lines : List (List String)) (units : List String) : List String := units.filterMap (mapsTo lines)

/-- A line of a transcription with its units mapped. -/
def mapLine (lines : List (List String)) : List String → List String
  | [] => []
  | utt :: units => utt :: mapUnits lines units

/-- **C174: mapping.** With a mapping both files are mapped, line by line, and scored like files without mapping: a unit is replaced by
what the last line of the mapping says of it, and removed if there is none. -/
theorem C174_mapping (delta : ℤ) (lines refFile hypFile : List (List String)) (hr : [] ∉ refFile) (hh : [] ∉ hypFile) :
    bound2Main delta (some lines) refFile hypFile =
      bound2Main delta none (refFile.map (mapLine lines)) (hypFile.map (mapLine lines)) := by
  have key : ∀ file : List (List String), [] ∉ file → ∃ tr, loadTranscript file [] = .ok tr ∧
      loadTranscript (file.map (mapLine lines)) [] = .ok (mapTransDrop (loadMapping lines []) tr []) := by
    intro file hf
    obtain ⟨tr, e, n, -⟩ := (C111_load file).2 hf
    refine ⟨tr, e, ?_⟩
    rw [mapTransDrop_eq _ tr [] (by simpa using n), List.nil_append]
    have gen : ∀ (file : List (List String)) (acc tr : Transcript), loadTranscript file acc = .ok tr →
        loadTranscript (file.map (mapLine lines)) (acc.map fun p => (p.1, mapUnits lines p.2))
          = .ok (tr.map fun p => (p.1, mapUnits lines p.2)) := by
      intro file
      induction file with
      | nil =>
        intro acc tr h
        rw [loadTranscript] at h
        cases h
        rfl
      | cons l file ih =>
        intro acc tr h
        cases l with
        | nil => simp [loadTranscript] at h
        | cons u ts =>
          simp only [loadTranscript] at h
          simp only [List.map_cons, mapLine, loadTranscript]
          rw [dictSet_map]
          exact ih _ _ h
    have h1 := gen file [] tr e
    rw [List.map_nil] at h1
    rw [h1]
    congr 1
    refine List.map_congr_left fun p _ => ?_
    simp only [mapUnits, C113_load]
  obtain ⟨ref, e1, e1'⟩ := key refFile hr
  obtain ⟨hyp, e2, e2'⟩ := key hypFile hh
  unfold bound2Main
  rw [e1, e2, e1', e2']

/-- **C174 (negation): mapping.** A unit that is missing from the mapping is removed with its frames: the later boundaries move, here
out of reach. -/
theorem C174_mapping_moves :
    bound2Main 2 (some [["a", "a"], ["b", "b"], ["x", "a"], ["1", "a"], ["2", "b"]]) [["u", "a", "x", "x", "x", "a", "b"]]
      [["u", "1", "1", "1", "1", "1", "2"]] = .ok ⟨1, 1, 1⟩ ∧
    bound2Main 2 (some [["a", "a"], ["b", "b"], ["1", "a"], ["2", "b"]]) [["u", "a", "x", "x", "x", "a", "b"]]
      [["u", "1", "1", "1", "1", "1", "2"]] = .error .zeroDivision := by decide +kernel

/-! ## Examples -/

example : bound2Main 0 (some [["a", "a"], ["b", "b"], ["1", "a"], ["2", "b"]]) [["u", "a", "b"]] [["u", "1", "x", "2"]] = .ok ⟨1, 1, 1⟩ ∧
    bound2Main 0 none [["u", "a", "b"]] [["u", "1", "2"]] = .ok ⟨1, 1, 1⟩ := by decide +kernel

example : bound2Score 2 boundRef boundHyp = .ok ⟨1, 2, 4 / 3⟩ := by decide +kernel

example : ∃ out, bound2Score 2 boundRef boundHyp = .ok out ∧ out.recall ≤ 1 := by
  have h : bound2Score 2 boundRef boundHyp = .ok ⟨1, 2, 4 / 3⟩ := by decide +kernel
  obtain ⟨_, _, _, h2, _⟩ := C174_scores_partial 2 boundRef boundHyp _ h
  exact ⟨_, h, h2.2⟩

example : bound2Score 0 boundRef (renamed (fun t => t ++ "'") boundRef) = .ok ⟨1, 1, 1⟩ := by
  refine C174_same 0 le_rfl _ _ (fun p hp => ?_) ⟨_, List.mem_cons_self, by decide +kernel⟩
  simp only [boundRef, List.mem_cons, List.not_mem_nil, or_false] at hp
  rcases hp with rfl | rfl
  · exact ⟨by simp, ["a'", "a'", "b'", "b'", "b'", "b'", "c'"], by decide +kernel, by simp, by decide +kernel⟩
  · exact ⟨by simp, ["a'"], by decide +kernel, by simp, by decide +kernel⟩

/-- One boundary, found three frames late. -/
example : bound2Score 2 [("u", ["a", "b", "b", "b", "b"])] [("u", ["1", "1", "1", "1", "2"])] = .error .zeroDivision := by
  refine C174_nothing_matches _ _ _ fun p hp => ?_
  simp only [List.mem_cons, List.not_mem_nil, or_false] at hp
  subst hp
  exact ⟨["1", "1", "1", "1", "2"], by decide +kernel, by simp, by simp, .inl (by decide +kernel), by decide +kernel⟩

/-- An utterance decoded as one unit. -/
example : bound2Score 2 (boundRef ++ [("x", ["a", "b"])]) (boundHyp ++ [("x", ["1", "1"])]) = .error .valueError :=
  (C174_errors 2 boundRef [] _ "x" ["a", "b"] ⟨2, 2, 1⟩ (by decide +kernel)).2.2.2 ["1", "1"] (by simp) (by decide +kernel) (by simp)
    (by decide +kernel) (by decide +kernel)

example : ∃ ref hyp, bound2Main 1 none [["u", "a"], ["u", "a", "b"]] [["u", "1", "2"]] = bound2Score 1 ref hyp ∧
    ref.lookup "u" = some ["a", "b"] := by
  obtain ⟨ref, hyp, e, _, _, h, _⟩ := (C174_files 1 [["u", "a"], ["u", "a", "b"]] [["u", "1", "2"]]).1 (by simp) (by simp)
  exact ⟨ref, hyp, e, by rw [h]; decide +kernel⟩

end Verif.Props
