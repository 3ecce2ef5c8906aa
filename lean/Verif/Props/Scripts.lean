import Verif.Lemmas.ScriptsText
import Verif.Lemmas.ScriptsStats

/-!
# C117–C120: data preparation scripts of the recipes
-/

namespace Verif.Props

open Verif Pipeline Scripts ScriptSpec

/-! ## C117: central frames -/

/-- `segments` gives the maximal runs of equal labels: each is inside the alignment and constant, the frame
after it has another label, every frame is in one of them, and the labels are the alignment without
repetitions. -/
theorem C117_runs (xs : List String) :
    (segments xs 0).map Prod.fst = xs.destutter (· ≠ ·) ∧
    (∀ s ∈ segments xs 0, s.2.1 < s.2.2 ∧ s.2.2 ≤ xs.length ∧
      (∀ j, s.2.1 ≤ j → j < s.2.2 → xs[j]? = some s.1) ∧
      (s.2.2 < xs.length → ∃ l, xs[s.2.2]? = some l ∧ l ≠ s.1)) ∧
    ∀ j < xs.length, ∃ s ∈ segments xs 0, s.2.1 ≤ j ∧ j < s.2.2 := by
  refine ⟨segments_labels xs 0, fun s hs => ?_, fun j hj => segments_cover xs 0 j (by omega) (by omega)⟩
  obtain ⟨_, h2, h3, h4⟩ := segments_bounds xs 0 s hs
  refine ⟨h2, by simpa using h3, fun j a b => by simpa using h4 j a b, fun h => ?_⟩
  simpa using segments_next xs 0 s hs (by simpa using h)

example : segments ["a", "a", "b", "c", "c"] 0 = [("a", 0, 2), ("b", 2, 3), ("c", 3, 5)] := by decide +kernel

/-- One frame per token of the alignment, in order, and the frame that is taken: the middle of the frames of
the token, except that the first one is not counted after the first token, and that the frame that follows is
counted before the last token. -/
theorem C117_central (ali : List ℕ) (m : List (ℕ × String)) (f : ℕ → String) (hne : ali ≠ [])
    (h : ∀ x ∈ ali, dictGet m x = .ok (f x)) :
    getCf ali m = .ok ((segments (ali.map f) 0).map fun s =>
      (s.1, ((if s.2.1 = 0 then 0 else s.2.1 + 1) + (if s.2.2 = ali.length then ali.length - 1 else s.2.2)) / 2)) :=
  getCf_ok m f ali hne h

example : getCf [0, 1, 1, 2, 3, 3, 3] [(0, "a"), (1, "a"), (2, "b"), (3, "c")] =
    .ok [("a", 1), ("b", 4), ("c", 5)] := by decide +kernel

/-- The frame belongs to the token exactly when the token is the first, the last, or has at least two
frames. -/
theorem C117_inside_partial (ali : List ℕ) (m : List (ℕ × String)) (f : ℕ → String) (hne : ali ≠ [])
    (h : ∀ x ∈ ali, dictGet m x = .ok (f x)) :
    ∃ out, getCf ali m = .ok out ∧ out.map Prod.fst = (ali.map f).destutter (· ≠ ·) ∧
      List.Forall₂ (fun (s : String × ℕ × ℕ) (c : String × ℕ) => c.1 = s.1 ∧ c.2 < ali.length ∧
        ((s.2.1 ≤ c.2 ∧ c.2 < s.2.2) ↔ (s.2.1 = 0 ∨ s.2.2 = ali.length ∨ s.2.1 + 2 ≤ s.2.2)))
        (segments (ali.map f) 0) out := by
  refine ⟨_, getCf_ok m f ali hne h, ?_, ?_⟩
  · rw [List.map_map, ← segments_labels (ali.map f) 0]
    rfl
  · rw [List.forall₂_map_right_iff, List.forall₂_same]
    intro s hs
    obtain ⟨_, h2, h3, _⟩ := segments_bounds _ 0 s hs
    rw [List.length_map, Nat.zero_add] at h3
    unfold cfOf
    dsimp only
    refine ⟨rfl, ?_, ?_⟩
    · split_ifs <;> omega
    · split_ifs with h0 h1 h1
      · simp only [h0, true_or, iff_true]; omega
      · simp only [h0, true_or, iff_true]; omega
      · simp only [h1, true_or, or_true, iff_true]; omega
      · simp only [h0, h1, false_or]; omega

/-- The code violates the claim: a token of one frame that is neither first nor last is represented by the
first frame of the token that follows. -/
theorem C117_next_token (ali : List ℕ) (m : List (ℕ × String)) (f : ℕ → String)
    (h : ∀ x ∈ ali, dictGet m x = .ok (f x)) (l : String) (a : ℕ)
    (hs : (l, a, a + 1) ∈ segments (ali.map f) 0) (ha : a ≠ 0) (hl : a + 1 < ali.length) :
    ∃ out l', getCf ali m = .ok out ∧ (l, a + 1) ∈ out ∧ (ali.map f)[a + 1]? = some l' ∧ l' ≠ l := by
  obtain ⟨l', h1, h2⟩ := segments_next _ 0 _ hs (by simpa using hl)
  refine ⟨_, l', getCf_ok m f ali (by rintro rfl; simp at hl) h, List.mem_map.2 ⟨_, hs, ?_⟩,
    by simpa using h1, h2⟩
  unfold cfOf
  dsimp only
  rw [if_neg ha, if_neg (by omega)]
  congr 1
  omega

example : ("b", 2, 3) ∈ segments ([0, 0, 1, 2].map fun n => if n = 0 then "a" else if n = 1 then "b" else "c") 0 ∧
    getCf [0, 0, 1, 2] [(0, "a"), (1, "b"), (2, "c")] = .ok [("a", 1), ("b", 3), ("c", 3)] := by
  decide +kernel

/-- An empty alignment and a pdf without phone are refused. -/
theorem C117_refused (ali : List ℕ) (m : List (ℕ × String)) :
    getCf [] m = .error .indexError ∧
    ((∃ x ∈ ali, x ∉ m.map Prod.fst) → getCf ali m = .error .keyError) := by
  refine ⟨rfl, ?_⟩
  rintro ⟨x, hx, hm⟩
  have hx2 := dictGet_error m x hm
  cases ali with
  | nil => simp at hx
  | cons y ali =>
    unfold getCf
    dsimp only
    cases hy : dictGet m y with
    | error e =>
      unfold dictGet at hy
      split at hy
      · cases hy
      · cases hy; rfl
    | ok l =>
      dsimp only
      rw [cfLoop_error m (y :: ali) ⟨x, hx, hx2⟩]

example : getCf [0, 5] [(0, "a")] = .error .keyError := by decide +kernel

/-- The archive: with features for all the frames and a number for every phone, one line per token, with the
features of the frame of `get_cf` and the number of the token. -/
theorem C117_extract {V : Type} (fea : ℕ → V) (ali : List ℕ) (m : List (ℕ × String)) (f : ℕ → String)
    (pm : List (String × ℕ)) (num : String → ℕ) (hne : ali ≠ []) (h : ∀ x ∈ ali, dictGet m x = .ok (f x))
    (hp : ∀ x ∈ ali, dictGet pm (f x) = .ok (num (f x))) :
    ∃ cfs, getCf ali m = .ok cfs ∧
      extractUtt ((List.range ali.length).map fea) ali m pm = .ok (cfs.map fun c => (fea c.2, num c.1)) := by
  obtain ⟨cfs, h1, h2, h3⟩ := C117_inside_partial ali m f hne h
  refine ⟨cfs, h1, ?_⟩
  unfold extractUtt
  rw [h1]
  dsimp only
  apply Eval.listComp_ok
  intro c hc
  have hlt : c.2 < ali.length := by
    have : ∀ (ss : List (String × ℕ × ℕ)) (cs : List (String × ℕ)),
        List.Forall₂ (fun (s : String × ℕ × ℕ) (c : String × ℕ) => c.1 = s.1 ∧ c.2 < ali.length ∧
        ((s.2.1 ≤ c.2 ∧ c.2 < s.2.2) ↔ (s.2.1 = 0 ∨ s.2.2 = ali.length ∨ s.2.1 + 2 ≤ s.2.2))) ss cs →
        ∀ c ∈ cs, c.2 < ali.length := by
      intro ss cs hh
      induction hh with
      | nil => simp
      | cons h _ ih =>
        intro c hc
        rw [List.mem_cons] at hc
        rcases hc with rfl | hc
        · exact h.2.1
        · exact ih c hc
    exact this _ _ h3 c hc
  have hlab : ∃ x ∈ ali, c.1 = f x := by
    have h4 : c.1 ∈ (ali.map f).destutter (· ≠ ·) := by rw [← h2]; exact List.mem_map.2 ⟨c, hc, rfl⟩
    obtain ⟨x, hx, h5⟩ := List.mem_map.1 ((List.destutter_sublist (· ≠ ·) (ali.map f)).subset h4)
    exact ⟨x, hx, h5.symm⟩
  obtain ⟨x, hx, hcx⟩ := hlab
  rw [List.getElem?_map, List.getElem?_range hlt, hcx, hp x hx]
  rfl

example : extractUtt ["x0", "x1", "x2", "x3"] [0, 0, 1, 2] [(0, "a"), (1, "b"), (2, "c")]
    [("a", 7), ("b", 8), ("c", 9)] = .ok [("x1", 7), ("x3", 8), ("x3", 9)] := by decide +kernel

/-- Features that are too short for a token raise `IndexError`; a phone without number raises `KeyError`. -/
theorem C117_extract_errors {V : Type} (uttFea : List V) (ali : List ℕ) (m : List (ℕ × String))
    (pm : List (String × ℕ)) (cfs : List (String × ℕ)) (hc : getCf ali m = .ok cfs) :
    ((∀ c ∈ cfs, c.1 ∈ pm.map Prod.fst) → (∃ c ∈ cfs, uttFea.length ≤ c.2) →
      extractUtt uttFea ali m pm = .error .indexError) ∧
    ((∀ c ∈ cfs, c.2 < uttFea.length) → (∃ c ∈ cfs, c.1 ∉ pm.map Prod.fst) →
      extractUtt uttFea ali m pm = .error .keyError) := by
  have hk : ∀ k e, dictGet pm k = .error e → e = .keyError := by
    intro k e h
    unfold dictGet at h
    split at h
    · cases h
    · cases h; rfl
  constructor
  · rintro h1 ⟨c, hcm, h2⟩
    unfold extractUtt
    rw [hc]
    apply Eval.listComp_error
    · intro x hx e' he
      split at he
      · cases he; rfl
      · split at he
        · rename_i e hd
          obtain ⟨p, hp, h3⟩ := List.mem_map.1 (h1 x hx)
          unfold dictGet at hd
          split at hd
          · cases hd
          · rename_i hf
            have := List.find?_eq_none.1 hf p hp
            simp [h3] at this
        · cases he
    · exact ⟨c, hcm, .indexError, by rw [List.getElem?_eq_none h2]⟩
  · rintro h1 ⟨c, hcm, h2⟩
    unfold extractUtt
    rw [hc]
    apply Eval.listComp_error
    · intro x hx e' he
      rw [List.getElem?_eq_getElem (h1 x hx)] at he
      dsimp only at he
      split at he
      · rename_i e hd
        cases he
        exact hk _ _ hd
      · cases he
    · refine ⟨c, hcm, .keyError, ?_⟩
      rw [List.getElem?_eq_getElem (h1 c hcm), dictGet_error pm c.1 h2]

example : extractUtt ["x0", "x1"] [0, 0, 1, 2] [(0, "a"), (1, "b"), (2, "c")] [("a", 7), ("b", 8), ("c", 9)] =
    .error .indexError := by decide +kernel

example : extractUtt ["x0", "x1", "x2", "x3"] [0, 0, 1, 2] [(0, "a"), (1, "b"), (2, "c")] [("a", 7), ("c", 9)] =
    .error .keyError := by decide +kernel

/-! ## C118: statistics of the features -/

/-- The mean, the variance and the number of frames of every coordinate over all the frames of the archive. -/
theorem C118_stats {F : Type} [Field F] [CharZero F] (d : ℕ) (feats : List (ℕ × List (List F)))
    (h : ∀ u ∈ feats, u.1 = d) (hf : feats.flatMap Prod.snd ≠ []) :
    featsStats feats = .ok ((List.range d).map (fun j => meanOf (column feats j)),
      (List.range d).map (fun j => varOf (column feats j)), (feats.flatMap Prod.snd).length) :=
  featsStats_eq d feats h hf

example : featsStats (F := ℚ) [(2, [[1, 5], [3, 5]]), (2, []), (2, [[5, 5]])] = .ok ([3, 5], [8 / 3, 0], 3) := by
  decide +kernel

/-- The variance is never negative, and it is zero exactly for a constant coordinate. -/
theorem C118_variance {K : Type} [Field K] [LinearOrder K] [IsStrictOrderedRing K] (d : ℕ)
    (feats : List (ℕ × List (List K))) (h : ∀ u ∈ feats, u.1 = d) (hf : feats.flatMap Prod.snd ≠ []) :
    ∃ mean var n, featsStats feats = .ok (mean, var, n) ∧ var.length = d ∧
      ∀ j < d, ∃ v, var[j]? = some v ∧ 0 ≤ v ∧
        (v = 0 ↔ ∀ r ∈ feats.flatMap Prod.snd, ∀ s ∈ feats.flatMap Prod.snd, r.getD j 0 = s.getD j 0) := by
  refine ⟨_, _, _, featsStats_eq d feats h hf, by simp, fun j hj => ⟨varOf (column feats j), ?_, varOf_nonneg _, ?_⟩⟩
  · rw [List.getElem?_map, List.getElem?_range hj]; rfl
  · rw [varOf_zero]
    unfold column
    simp only [List.forall_mem_map]

example : (∀ u ∈ [(1, [[(1 : ℚ)], [2]])], u.1 = 1) ∧ varOf (column [(1, [[(1 : ℚ)], [2]])] 0) = 1 / 4 := by
  decide +kernel

/-- The statistics depend only on the frames: neither the order of the utterances nor the way the frames are
cut into utterances changes them. -/
theorem C118_frames_only {F : Type} [Field F] [CharZero F] (d : ℕ) (f1 f2 : List (ℕ × List (List F)))
    (h1 : ∀ u ∈ f1, u.1 = d) (h2 : ∀ u ∈ f2, u.1 = d) (hf : f1.flatMap Prod.snd ≠ [])
    (hp : (f1.flatMap Prod.snd).Perm (f2.flatMap Prod.snd)) : featsStats f1 = featsStats f2 := by
  have hf2 : f2.flatMap Prod.snd ≠ [] := fun h0 => hf (by rw [h0] at hp; exact hp.eq_nil)
  rw [featsStats_eq d f1 h1 hf, featsStats_eq d f2 h2 hf2, hp.length_eq]
  congr 2
  · apply List.map_congr_left
    intro j _
    exact meanOf_perm _ _ (column_perm f1 f2 hp j)
  · congr 1
    apply List.map_congr_left
    intro j _
    exact varOf_perm _ _ (column_perm f1 f2 hp j)

example : featsStats (F := ℚ) [(1, [[1], [2]]), (1, [[4]])] = featsStats [(1, [[4], [1]]), (1, [[2]])] := by
  decide +kernel

/-- An empty archive is refused, and so is an utterance of another dimension, unless that dimension is 1. -/
theorem C118_refused {F : Type} [Field F] (d : ℕ) (rows : List (List F)) (feats : List (ℕ × List (List F))) :
    featsStats ([] : List (ℕ × List (List F))) = .error .indexError ∧
    ((∃ u ∈ feats, u.1 ≠ d ∧ u.1 ≠ 1) → featsStats ((d, rows) :: feats) = .error .valueError) := by
  refine ⟨rfl, fun ⟨u, hu, h⟩ => ?_⟩
  unfold featsStats
  dsimp only
  rw [statsLoop_error d _ ⟨u, List.mem_cons_of_mem _ hu, h⟩ _ _ (by simp) (by simp)]

example : featsStats (F := ℚ) [(2, [[1, 2]]), (3, [[1, 2, 3]])] = .error .valueError := by decide +kernel

/-- The code violates the claim for an utterance with one column: it is not refused, its values are added to
all the coordinates; in the other order the same archive is refused. -/
theorem C118_one_column_accepted :
    featsStats (F := ℚ) [(2, [[1, 3]]), (1, [[5]])] = .ok ([3, 4], [4, 1], 2) ∧
    featsStats (F := ℚ) [(1, [[5]]), (2, [[1, 3]])] = .error .valueError := by decide +kernel

/-! ## C119: phonetic transcriptions and frame labels -/

/-- The lexicon holds the last pronunciation of each word; a blank line is an error. -/
theorem C119_lexicon (lines : List (List String)) :
    ([] ∈ lines → loadLexicon lines [] = .error .indexError) ∧
    ([] ∉ lines → ∃ lex, loadLexicon lines [] = .ok lex ∧ ∀ w, lex.lookup w = EvalSpec.saidOf lines w) := by
  rw [loadLexicon_eq, Eval.loadTranscript_eq]
  refine ⟨fun h => by rw [if_pos h], fun h => ⟨_, by rw [if_neg h], fun w => ?_⟩⟩
  rw [Eval.foldl_dictSet_lookup lines h]
  simp

example : loadLexicon [["a", "x"], ["b", "y", "z"], ["a", "w"]] [] = .ok [("a", ["w"]), ("b", ["y", "z"])] := by
  decide +kernel

/-- The utterances whose words are all in the lexicon are printed in order with the phones of their words in
order, between silences if asked for; the others are left out; a blank line is an error. -/
theorem C119_trans (lines : List (List String)) (lex : List (String × List String)) (addSil : Bool) :
    phoneTrans lex addSil lines = if [] ∈ lines then .error .indexError else
      .ok ((lines.filter fun l => l.tail.all fun w => (lex.lookup w).isSome).map fun l =>
        l.headD "" :: ((if addSil then ["sil"] else []) ++ (l.tail.flatMap fun w => (lex.lookup w).getD []) ++
          (if addSil then ["sil"] else []))) :=
  phoneTrans_eq lex addSil lines

example : phoneTrans [("a", ["x"]), ("b", ["y", "z"])] true [["u1", "a", "b"], ["u2", "c"], ["u3"]] =
    .ok [["u1", "sil", "x", "y", "z", "sil"], ["u3", "sil", "sil"]] := by decide +kernel

/-- Consecutive segments, given by their first and last frame. -/
inductive Consecutive : ℤ → List (ℤ × ℤ × String) → Prop
  | nil (t : ℤ) : Consecutive t []
  | cons (t e : ℤ) (u : String) (rest : List (ℤ × ℤ × String)) (h : t ≤ e) (hr : Consecutive (e + 1) rest) :
      Consecutive t ((t, e, u) :: rest)

/-- With consecutive segments from frame `t`, frame `j` of a segment gets its label, and there are as many
labels as frames. -/
theorem C119_align (t : ℤ) (segs : List (ℤ × ℤ × String)) (h : Consecutive t segs) :
    (∀ s ∈ segs, ∀ j : ℕ, s.1 ≤ t + j → t + j ≤ s.2.1 → (framesOf segs)[j]? = some ("au" ++ s.2.2)) ∧
    ((framesOf segs).length : ℤ) = (segs.getLast?.map fun s => s.2.1 + 1).getD t - t := by
  induction h with
  | nil t => simp [framesOf]
  | cons t e u rest hte hr ih =>
    obtain ⟨ih1, ih2⟩ := ih
    have hunf : framesOf ((t, e, u) :: rest) = List.replicate (e - t + 1).toNat ("au" ++ u) ++ framesOf rest := by
      unfold framesOf; rw [List.flatMap_cons]
    have hge : ∀ (t' : ℤ) (l : List (ℤ × ℤ × String)), Consecutive t' l → ∀ s ∈ l, t' ≤ s.1 := by
      intro t' l hl
      induction hl with
      | nil => simp
      | cons t e u rest h _ ih =>
        intro s hs
        rw [List.mem_cons] at hs
        rcases hs with rfl | hs
        · exact le_rfl
        · exact le_trans (by omega) (ih s hs)
    rw [hunf]
    constructor
    · intro s hs j h1 h2
      rw [List.mem_cons] at hs
      rcases hs with rfl | hs
      · dsimp only at h1 h2 ⊢
        rw [List.getElem?_append_left (by simp; omega), List.getElem?_replicate, if_pos (by omega)]
      · have hg := hge _ _ hr s hs
        rw [List.getElem?_append_right (by simp; omega), List.length_replicate]
        apply ih1 s hs
        · omega
        · omega
    · rw [List.length_append, List.length_replicate, Nat.cast_add, ih2]
      cases rest with
      | nil => simp; omega
      | cons r rest =>
        rw [List.getLast?_cons_cons]
        have : ((r :: rest).getLast?).isSome := by simp
        obtain ⟨z, hz⟩ := Option.isSome_iff_exists.1 this
        rw [hz]
        simp
        omega

example : Consecutive 0 [(0, 1, "3"), (2, 2, "5")] ∧
    framesOf [(0, 1, "3"), (2, 2, "5")] = ["au3", "au3", "au5"] :=
  ⟨.cons _ _ _ _ (by decide) (.cons _ _ _ _ (by decide) (.nil _)), by decide +kernel⟩

/-! ## C120: units from state alignments -/

/-- A mapping file that lists the pdfs of the units one unit after the other, neighbours having different
names: every pdf is mapped to its unit, and the start pdfs are the first pdf of each unit. -/
theorem C120_mapping (units : List (String × List String)) (hne : ∀ u ∈ units, u.2 ≠ [])
    (hch : List.IsChain (· ≠ ·) ("" :: units.map Prod.fst)) (hnd : (units.flatMap Prod.snd).Nodup) :
    ∃ m starts, readMapping (mappingLines units) "" [] [] = .ok (m, starts) ∧
      (∀ u ∈ units, ∀ p ∈ u.2, dictGet m p = .ok u.1) ∧ starts = units.map fun u => u.2.headD "" := by
  refine ⟨_, _, readMapping_eq units "" [] [] hne hch (by simpa using hnd), ?_, by simp⟩
  intro u hu p hp
  apply dictGet_of_mem
  · rw [List.nil_append, List.map_flatMap]
    simpa [Function.comp_def] using hnd
  · rw [List.nil_append, List.mem_flatMap]
    exact ⟨u, hu, List.mem_map.2 ⟨p, hp, rfl⟩⟩

example : readMapping (mappingLines [("a", ["0", "1"]), ("b", ["2"])]) "" [] [] =
    .ok ([("0", "a"), ("1", "a"), ("2", "b")], ["0", "2"]) := by decide +kernel

/-- `pdf2unit.py --phone-level`: when the alignment, repetitions removed, goes through all the pdfs of a
sequence of units, the line printed is that sequence. -/
theorem C120_pdf2unit_partial (units : List (String × List String)) (hne : ∀ u ∈ units, u.2 ≠ [])
    (hch : List.IsChain (· ≠ ·) ("" :: units.map Prod.fst)) (hnd : (units.flatMap Prod.snd).Nodup)
    (seq : List (String × List String)) (hs : seq ≠ []) (hseq : ∀ u ∈ seq, u ∈ units) (pdfs : List String)
    (hd : pdfs.destutter (· ≠ ·) = seq.flatMap Prod.snd) (uttid : String) :
    ∃ m starts, readMapping (mappingLines units) "" [] [] = .ok (m, starts) ∧
      pdf2unitLine true m starts (uttid :: pdfs) = .ok (some (uttid :: seq.map Prod.fst)) := by
  obtain ⟨m, starts, h1, h2, h3⟩ := C120_mapping units hne hch hnd
  refine ⟨m, starts, h1, ?_⟩
  let f : String → String := fun p => match dictGet m p with | .ok u => u | .error _ => ""
  have hf : ∀ x ∈ pdfs, dictGet m x = .ok (f x) := by
    intro x hx
    have hx2 : x ∈ pdfs.destutter (· ≠ ·) := by
      cases pdfs with
      | nil => simp at hx
      | cons c cs =>
        clear hd
        change x ∈ cs.destutter' (· ≠ ·) c
        induction cs generalizing c with
        | nil => simpa using hx
        | cons y ys ih =>
          rw [List.destutter']
          by_cases hcy : c = y
          · subst hcy
            rw [if_neg (by simp)]
            exact ih c (by simpa using hx)
          · rw [if_pos hcy]
            rw [List.mem_cons] at hx ⊢
            rcases hx with rfl | hx
            · exact Or.inl rfl
            · exact Or.inr (ih y hx)
    rw [hd, List.mem_flatMap] at hx2
    obtain ⟨u, hu, hxu⟩ := hx2
    have := h2 u (hseq u hu) x hxu
    change dictGet m x = .ok (match dictGet m x with | .ok u => u | .error _ => "")
    rw [this]
  have hstate : stateToUnit pdfs starts m = .ok (seq.map Prod.fst) := by
    refine stateToUnit_eq starts m f pdfs hf seq hs (fun u hu => ?_) hd
    have huu := hseq u hu
    have hu2 := hne u huu
    obtain ⟨name, states⟩ := u
    cases states with
    | nil => exact absurd rfl hu2
    | cons s t =>
      refine ⟨s, t, rfl, ?_, ?_, ?_⟩
      · rw [h3]
        exact List.mem_map.2 ⟨_, huu, rfl⟩
      · intro x hx hst
        rw [h3] at hst
        obtain ⟨v, hv, hvx⟩ := List.mem_map.1 hst
        have hvne := hne v hv
        obtain ⟨name', states'⟩ := v
        cases states' with
        | nil => exact absurd rfl hvne
        | cons s' t' =>
          dsimp only [List.headD_cons] at hvx
          subst hvx
          -- `s'` would be in two places
          by_cases hsame : (name', s' :: t') = (name, s :: t)
          · simp only [Prod.mk.injEq, List.cons.injEq] at hsame
            have := (List.nodup_flatMap.1 hnd).1 _ huu
            dsimp only at this
            rw [List.nodup_cons] at this
            exact this.1 (by rw [← hsame.2.1]; exact hx)
          · have : Std.Symm (fun a b : String × List String => List.Disjoint a.2 b.2) :=
              ⟨fun a b hab => hab.symm⟩
            have hp : units.Pairwise (fun a b => List.Disjoint a.2 b.2) := (List.nodup_flatMap.1 hnd).2
            exact hp.forall hv huu hsame List.mem_cons_self (List.mem_cons_of_mem _ hx)
      · have := h2 (name, s :: t) huu s List.mem_cons_self
        change (match dictGet m s with | .ok u => u | .error _ => "") = name
        rw [this]
  unfold pdf2unitLine
  cases pdfs with
  | nil =>
    cases seq with
    | nil => exact absurd rfl hs
    | cons u seq =>
      have := hne u (hseq u List.mem_cons_self)
      rw [List.flatMap_cons] at hd
      simp only [List.destutter_nil] at hd
      have h0 := (List.append_eq_nil_iff.1 hd.symm).1
      exact absurd h0 this
  | cons x xs =>
    dsimp only
    rw [Eval.listComp_ok (dictGet m) f _ hf]
    dsimp only
    rw [if_pos rfl, hstate]

example : pdf2unitLine true [("0", "a"), ("1", "a"), ("2", "b"), ("3", "b")] ["0", "2"]
    ["u", "0", "0", "1", "2", "3", "3", "0", "1", "0", "1", "1"] = .ok (some ["u", "a", "b", "a", "a"]) := by
  decide +kernel

/-- Without `--phone-level`, one unit per frame. -/
theorem C120_frames (m : List (String × String)) (starts : List String) (f : String → String) (uttid p : String)
    (pdfs : List String) (h : ∀ x ∈ p :: pdfs, dictGet m x = .ok (f x)) :
    pdf2unitLine false m starts (uttid :: p :: pdfs) = .ok (some (uttid :: (p :: pdfs).map f)) := by
  unfold pdf2unitLine
  dsimp only
  rw [Eval.listComp_ok (dictGet m) f _ h]
  rfl

example : pdf2unitLine false [("0", "a"), ("1", "a"), ("2", "b")] ["0", "2"] ["u", "0", "1", "1", "2"] =
    .ok (some ["u", "a", "a", "a", "b"]) := by decide +kernel

/-- `convert_states_to_phone.py`: the same with the states numbered `n` by `n`. -/
theorem C120_states_partial (phoneMap : List (ℕ × String)) (n : ℕ) (hn : 0 < n)
    (h : (phoneMap.map Prod.fst).Nodup) (seq : List (ℕ × String)) (hne : seq ≠ [])
    (hseq : ∀ p ∈ seq, p ∈ phoneMap) (ids : List ℕ)
    (hd : ids.destutter (· ≠ ·) = seq.flatMap fun p => statesOfUnit n p.1) :
    statesLine phoneMap n ids = .ok (seq.map Prod.snd) :=
  statesLine_eq phoneMap n hn h seq hne hseq ids hd

example : statesLine [(0, "a"), (1, "b")] 2 [0, 0, 1, 2, 3, 3, 0, 1, 0, 1, 1] = .ok ["a", "b", "a", "a"] := by
  decide +kernel

/-- The code violates the claim for units with one state: a unit said twice cannot be told from a unit said
once, in both scripts. -/
theorem C120_single_state_merged :
    pdf2unitLine true [("0", "a"), ("1", "b")] ["0", "1"] ["u", "0", "0", "1"] = .ok (some ["u", "a", "b"]) ∧
    pdf2unitLine true [("0", "a"), ("1", "b")] ["0", "1"] ["u", "0", "1"] = .ok (some ["u", "a", "b"]) ∧
    statesLine [(0, "a"), (1, "b")] 1 [0, 0, 1] = .ok ["a", "b"] := by decide +kernel

/-- Empty alignments: `pdf2unit.py` stops with a message, the other script with an `IndexError`; unknown pdfs
are errors. -/
theorem C120_refused (m : List (String × String)) (starts pdfs : List String) (u : String) (level : Bool)
    (phoneMap : List (ℕ × String)) (n : ℕ) :
    pdf2unitLine level m starts [u] = .ok none ∧ pdf2unitLine level m starts [] = .ok none ∧
    statesLine phoneMap n [] = .error .indexError ∧
    ((∃ p ∈ pdfs, p ∉ m.map Prod.fst) → pdf2unitLine level m starts (u :: pdfs) = .error .keyError) := by
  refine ⟨rfl, rfl, rfl, ?_⟩
  rintro ⟨p, hp, hm⟩
  unfold pdf2unitLine
  cases pdfs with
  | nil => simp at hp
  | cons x xs =>
    dsimp only
    rw [Eval.listComp_error (dictGet m) .keyError _ (by
      intro y _ e he
      unfold dictGet at he
      split at he
      · cases he
      · cases he; rfl) ⟨p, hp, .keyError, dictGet_error m p hm⟩]

example : pdf2unitLine true [("0", "a")] ["0"] ["u", "0", "9"] = .error .keyError := by decide +kernel

end Verif.Props
