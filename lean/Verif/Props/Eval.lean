import Verif.Lemmas.Eval
import Verif.Props.Scoring

/-!
# C111–C113: error rates and mappings of transcriptions
-/

namespace Verif.Props

open Verif Pipeline Scoring Eval EvalSpec Spec

/-! ## C111: error rates -/

/-- The transcription of an utterance is the last line with its name; an empty line raises. -/
theorem C111_load (lines : List (List String)) :
    ([] ∈ lines → loadTranscript lines [] = .error .indexError) ∧
    ([] ∉ lines → ∃ tr, loadTranscript lines [] = .ok tr ∧ (tr.map Prod.fst).Nodup ∧
      ∀ utt, tr.lookup utt = saidOf lines utt) := by
  refine ⟨fun h => ?_, fun h =>
    ⟨lines.foldl (fun d l => dictSet d (l.headD "") l.tail) [], ?_, ?_, fun utt => ?_⟩⟩
  · rw [loadTranscript_eq, if_pos h]
  · rw [loadTranscript_eq, if_neg h]
  · exact foldl_dictSet_nodup lines [] (by simp)
  · rw [foldl_dictSet_lookup lines h]; simp

example : loadTranscript [["u1", "a", "b"], ["u2"], ["u1", "c"]] [] = .ok [("u1", ["c"]), ("u2", [])] := by
  decide +kernel

/-- The token error rate is the smallest number of edits over the number of reference tokens, summed over
the utterances that have a hypothesis. -/
theorem C111_ter_partial (mapping : Option (List (String × String))) (merge : Bool) (ref hyp : Transcript)
    (hr : (ref.map Prod.fst).Nodup) (hh : (hyp.map Prod.fst).Nodup) :
    ∃ edits : List ℕ,
      List.Forall₂ (fun n p => IsLeast {n | Edits n (prepared mapping merge p.1) (prepared mapping merge p.2)} n)
        edits (common ref hyp) ∧
      let words := ((common ref hyp).map fun p => (prepared mapping merge p.1).length).sum
      (words ≠ 0 → terMain mapping merge ref hyp = .ok (.value (100 * edits.sum / words))) ∧
      (words = 0 → common ref hyp ≠ [] → terMain mapping merge ref hyp = .ok .notFinite) ∧
      (common ref hyp = [] → terMain mapping merge ref hyp = .error .zeroDivision) := by
  refine ⟨(common ref hyp).map fun p => wer (prepared mapping merge p.1) (prepared mapping merge p.2), ?_, ?_⟩
  · rw [List.forall₂_map_left_iff]
    refine List.forall₂_same.2 fun p _ => ?_
    exact C53_minimum _ _
  · dsimp only
    rw [terMain_eq mapping merge ref hyp hr hh]
    refine ⟨fun hw => ?_, fun hw hc => ?_, fun hc => ?_⟩
    · unfold rate
      rw [if_neg hw]
    · unfold rate
      rw [if_pos hw]
      cases h : common ref hyp with
      | nil => exact absurd h hc
      | cons p l => simp
    · rw [hc]; rfl

/-- No error exactly when the sequences are the same. -/
theorem C111_zero_iff (mapping : Option (List (String × String))) (merge : Bool) (ref hyp : Transcript)
    (hr : (ref.map Prod.fst).Nodup) (hh : (hyp.map Prod.fst).Nodup) (q : ℚ)
    (hq : terMain mapping merge ref hyp = .ok (.value q)) :
    0 ≤ q ∧ (q = 0 ↔ ∀ p ∈ common ref hyp, prepared mapping merge p.1 = prepared mapping merge p.2) := by
  rw [terMain_eq mapping merge ref hyp hr hh] at hq
  unfold rate at hq
  dsimp only at hq
  split at hq
  · split at hq <;> simp at hq
  · rename_i hw
    simp only [Except.ok.injEq, Score.value.injEq] at hq
    subst hq
    refine ⟨by positivity, ?_⟩
    have hw' : (((((common ref hyp).map fun p => (prepared mapping merge p.1).length).sum : ℕ) : ℚ)) ≠ 0 := by
      exact_mod_cast hw
    rw [div_eq_zero_iff, or_iff_left hw', mul_eq_zero, or_iff_right (by norm_num), Nat.cast_eq_zero,
      List.sum_eq_zero_iff]
    constructor
    · intro h p hp
      have := h _ (List.mem_map_of_mem (f := fun p => wer (prepared mapping merge p.1)
        (prepared mapping merge p.2)) hp)
      exact (C53_zero_iff _ _).1 this
    · intro h n hn
      obtain ⟨p, hp, rfl⟩ := List.mem_map.1 hn
      exact (C53_zero_iff _ _).2 (h p hp)

/-- Missing from the property: utterances of the reference without hypothesis do not change the rate. -/
theorem C111_missing_ignored (mapping : Option (List (String × String))) (merge : Bool)
    (ref hyp : Transcript) (hr : (ref.map Prod.fst).Nodup) (hh : (hyp.map Prod.fst).Nodup) :
    terMain mapping merge ref hyp =
      terMain mapping merge (ref.filter fun p => p.1 ∈ hyp.map Prod.fst) hyp := by
  have hc : common (ref.filter fun p => p.1 ∈ hyp.map Prod.fst) hyp = common ref hyp := by
    unfold common
    rw [List.filterMap_filter]
    refine List.filterMap_congr fun p _ => ?_
    by_cases h : p.1 ∈ hyp.map Prod.fst
    · simp only [h, decide_true, if_true]
    · rw [(lookup_none hyp p.1).2 h]; simp
  rw [terMain_eq mapping merge ref hyp hr hh, terMain_eq mapping merge _ hyp ?_ hh, hc]
  exact hr.sublist (List.filter_sublist.map _)

/-- Three of the four reference tokens are missing and the rate is zero. -/
theorem C111_missing_utterance_not_counted :
    terMain none false [("u1", ["a"]), ("u2", ["a", "b", "c"])] [("u1", ["a"])] = .ok (.value 0) ∧
    wer ["a", "b", "c"] ([] : List String) = 3 := by decide +kernel

/-- Rates above one hundred. -/
example : terMain none false [("u1", ["a"])] [("u1", ["b", "c", "d"])] = .ok (.value 300) := by decide +kernel

/-- With `--no-repeat` and a mapping: `b` is mapped to `a`, and `x` is left out. -/
example : terMain (some [("a", "a"), ("b", "a")]) true [("u1", ["a", "b", "a"])] [("u1", ["b", "x", "a"])] =
    .ok (.value 0) := by decide +kernel

/-- The TIMIT script refuses files with different utterances, and otherwise gives the smallest number of
edits over the number of tokens of the reference. -/
theorem C111_score (remove : Option (List String)) (duplicate : String)
    (phoneMap : Option (List (String × String))) (ref hyp : Transcript)
    (hr : (ref.map Prod.fst).Nodup) :
    (¬ (ref.map Prod.fst).Perm (hyp.map Prod.fst) →
      scoreMain remove duplicate phoneMap ref hyp = .ok .refused) ∧
    ((ref.map Prod.fst).Perm (hyp.map Prod.fst) →
      ((∃ p ∈ common ref hyp, ¬ Mapped remove phoneMap p.1 ∨ ¬ Mapped remove phoneMap p.2) →
        scoreMain remove duplicate phoneMap ref hyp = .error .keyError) ∧
      ((∀ p ∈ common ref hyp, Mapped remove phoneMap p.1 ∧ Mapped remove phoneMap p.2) →
        ∃ edits : List ℕ,
          List.Forall₂ (fun n p => IsLeast {n | Edits n (scored remove duplicate phoneMap p.1)
            (scored remove duplicate phoneMap p.2)} n) edits (common ref hyp) ∧
          let words := ((common ref hyp).map fun p => (scored remove duplicate phoneMap p.1).length).sum
          (words ≠ 0 → scoreMain remove duplicate phoneMap ref hyp = .ok (.value (100 * edits.sum / words))) ∧
          (words = 0 → ref ≠ [] → scoreMain remove duplicate phoneMap ref hyp = .ok .notFinite) ∧
          (ref = [] → scoreMain remove duplicate phoneMap ref hyp = .error .zeroDivision))) := by
  have hloop : ∀ (l : Transcript), (∀ p ∈ l, p ∈ ref) → (∀ p ∈ l, p.1 ∈ hyp.map Prod.fst) → ∀ acc : ErrAcc,
      ((∃ p ∈ common l hyp, ¬ Mapped remove phoneMap p.1 ∨ ¬ Mapped remove phoneMap p.2) →
        scoreLoop remove duplicate phoneMap ref hyp (l.map Prod.fst) acc = .error .keyError) ∧
      ((∀ p ∈ common l hyp, Mapped remove phoneMap p.1 ∧ Mapped remove phoneMap p.2) →
        scoreLoop remove duplicate phoneMap ref hyp (l.map Prod.fst) acc =
          .ok ⟨acc.errs + ((common l hyp).map fun p =>
              wer (scored remove duplicate phoneMap p.1) (scored remove duplicate phoneMap p.2)).sum,
            acc.words + ((common l hyp).map fun p => (scored remove duplicate phoneMap p.1).length).sum,
            acc.numpy || !l.isEmpty⟩) := by
    intro l
    induction l with
    | nil => intro _ _ acc; simp [common, scoreLoop]
    | cons p l ih =>
      intro h1 h2 acc
      obtain ⟨u, r⟩ := p
      have ih := ih (fun q hq => h1 q (List.mem_cons_of_mem _ hq)) fun q hq => h2 q (List.mem_cons_of_mem _ hq)
      have hlr : ref.lookup u = some r := lookup_of_mem ref hr u r (h1 (u, r) (by simp))
      obtain ⟨hs, hlh⟩ : ∃ hs, hyp.lookup u = some hs := by
        cases hl : hyp.lookup u with
        | none => exact absurd (h2 (u, r) (by simp)) ((lookup_none hyp u).1 hl)
        | some hs => exact ⟨hs, rfl⟩
      have hcm : common ((u, r) :: l) hyp = (r, hs) :: common l hyp := by
        unfold common
        rw [List.filterMap_cons, hlh]; rfl
      rw [hcm, List.map_cons, scoreLoop, dictGet_lookup, dictGet_lookup, hlr, hlh]
      dsimp only
      constructor
      · intro h
        by_cases hr1 : Mapped remove phoneMap r
        · rw [filterText_ok _ _ _ _ hr1]
          by_cases hh1 : Mapped remove phoneMap hs
          · rw [filterText_ok _ _ _ _ hh1]
            dsimp only
            refine (ih _).1 ?_
            obtain ⟨q, hq, h3⟩ := h
            rw [List.mem_cons] at hq
            rcases hq with rfl | hq
            · exact absurd h3 (by simp [hr1, hh1])
            · exact ⟨q, hq, h3⟩
          · rw [filterText_error _ _ _ _ hh1]
        · rw [filterText_error _ _ _ _ hr1]
      · intro h
        rw [filterText_ok _ _ _ _ (h (r, hs) (by simp)).1, filterText_ok _ _ _ _ (h (r, hs) (by simp)).2]
        dsimp only
        rw [(ih _).2 fun q hq => h q (List.mem_cons_of_mem _ hq)]
        simp [C54_scripts_agree, Nat.add_assoc]
  constructor
  · intro h
    unfold scoreMain
    rw [if_pos]
    rwa [ne_eq, insertionSort_eq_iff]
  · intro h
    have hk : ∀ p ∈ ref, p.1 ∈ hyp.map Prod.fst := fun p hp => h.subset (List.mem_map_of_mem hp)
    obtain ⟨l1, l2⟩ := hloop ref (fun _ h => h) hk ⟨0, 0, false⟩
    have hm : scoreMain remove duplicate phoneMap ref hyp =
        match scoreLoop remove duplicate phoneMap ref hyp (ref.map Prod.fst) ⟨0, 0, false⟩ with
        | .error e => .error e
        | .ok acc => rate acc := by
      unfold scoreMain
      rw [if_neg (not_not.2 ((insertionSort_eq_iff _ _).2 h))]
      rfl
    refine ⟨fun hu => ?_, fun ha => ?_⟩
    · rw [hm, l1 hu]
    · rw [l2 ha] at hm
      refine ⟨(common ref hyp).map fun p => wer (scored remove duplicate phoneMap p.1)
        (scored remove duplicate phoneMap p.2), ?_, ?_⟩
      · rw [List.forall₂_map_left_iff]
        refine List.forall₂_same.2 fun p _ => ?_
        exact C53_minimum _ _
      · dsimp only at hm ⊢
        simp only [Nat.zero_add, Bool.false_or] at hm
        rw [hm]
        refine ⟨fun hw => ?_, fun hw hc => ?_, fun hc => ?_⟩
        · unfold rate
          rw [if_neg hw]
        · unfold rate
          rw [if_pos hw]
          cases ref with
          | nil => exact absurd rfl hc
          | cons p l => simp
        · subst hc; rfl

example : scoreMain (some ["sil"]) "no" (some [("ao", "aa"), ("aa", "aa"), ("pau", "sil")])
    [("u1", ["sil", "ao", "aa"]), ("u2", ["pau", "aa"])] [("u2", ["aa"]), ("u1", ["ao"])] =
    .ok (.value 0) := by decide +kernel

example : scoreMain none "yes" none [("u1", ["a"]), ("u2", ["b"])] [("u1", ["a"])] = .ok .refused := by
  decide +kernel

/-- Both scripts give the same rate for the same utterances. -/
theorem C111_scripts_agree (duplicate : String) (ref hyp : Transcript) (hr : (ref.map Prod.fst).Nodup)
    (hh : (hyp.map Prod.fst).Nodup) (hp : (ref.map Prod.fst).Perm (hyp.map Prod.fst)) :
    scoreMain none duplicate none ref hyp = terMain none (decide (duplicate = "no")) ref hyp := by
  have hsc : ∀ t, scored none duplicate none t = prepared none (decide (duplicate = "no")) t := by
    intro t
    unfold scored prepared
    by_cases hd : duplicate = "no" <;> simp [hd]
  have hc : common ref hyp = [] ↔ ref = [] := by
    constructor
    · intro h
      cases ref with
      | nil => rfl
      | cons p l =>
        exfalso
        have hm : p.1 ∈ hyp.map Prod.fst := hp.subset (by simp)
        cases hl : hyp.lookup p.1 with
        | none => exact (lookup_none hyp p.1).1 hl hm
        | some v =>
          unfold common at h
          rw [List.filterMap_cons, hl] at h
          simp at h
    · rintro rfl; rfl
  obtain ⟨e1, he1, hs⟩ := ((C111_score none duplicate none ref hyp hr).2 hp).2 (by
    intro p _; constructor <;> (intro m hm; cases hm))
  obtain ⟨e2, he2, ht⟩ := C111_ter_partial none (decide (duplicate = "no")) ref hyp hr hh
  simp only [hsc] at he1 hs
  have he : e1 = e2 := by
    generalize common ref hyp = C at he1 he2
    clear hs ht hc
    induction he1 generalizing e2 with
    | nil => cases he2; rfl
    | cons h1 _ ih =>
      cases he2 with
      | cons h2 h3 => rw [h1.unique h2, ih _ h3]
  subst he
  dsimp only at hs ht
  by_cases hw : ((common ref hyp).map fun p => (prepared none (decide (duplicate = "no")) p.1).length).sum = 0
  · by_cases hn : ref = []
    · rw [hs.2.2 hn, ht.2.2 (hc.2 hn)]
    · rw [hs.2.1 hw hn, ht.2.1 hw fun h => hn (hc.1 h)]
  · rw [hs.1 hw, ht.1 hw]

/-! ## C112: the mapping of largest overlap -/

/-- The counts are the numbers of frames shared by the unit and the phone, and only units that are proposed
somewhere have an entry. -/
theorem C112_counts (ref hyp : Transcript) (h : ∀ p ∈ ref, p.1 ∈ hyp.map Prod.fst) :
    ∃ counts, overlapCounts hyp ref [] = .ok counts ∧ (counts.map Prod.fst).Nodup ∧
      (∀ u, u ∈ counts.map Prod.fst ↔ ∃ x ∈ framePairs ref hyp, x.2 = u) ∧
      ∀ u p, (((counts.lookup u).getD []).lookup p).getD 0 = overlap ref hyp u p := by
  have h' : ∀ p ∈ ref, hyp.lookup p.1 ≠ none := fun p hp hn => (lookup_none hyp p.1).1 hn (h p hp)
  refine ⟨_, overlapCounts_eq hyp ref [] h', ?_, ?_, ?_⟩
  · exact (foldl_bump_inv _ [] ⟨by simp, by simp⟩).outer
  · intro u
    rw [foldl_bump_keys]
    simp
  · intro u p
    have := cnt_foldl (framePairs ref hyp) [] u p
    unfold cnt at this
    rw [this]
    simp [overlap]

/-- Every proposed unit is mapped to a phone it shares the most frames with, and no mapping of the units
agrees with the reference on more frames. -/
theorem C112_optimal (ref hyp : Transcript) (h : ∀ p ∈ ref, p.1 ∈ hyp.map Prod.fst) :
    ∃ M : List (String × String), maxOverlap ref hyp = .ok (M.map fun p => [p.1, p.2]) ∧
      (M.map Prod.fst).Nodup ∧
      (∀ u, u ∈ M.map Prod.fst ↔ ∃ x ∈ framePairs ref hyp, x.2 = u) ∧
      (∀ u k, M.lookup u = some k → ∀ p, overlap ref hyp u p ≤ overlap ref hyp u k) ∧
      ∀ g : String → String,
        agreement ref hyp g ≤ agreement ref hyp fun u => (M.lookup u).getD "" := by
  obtain ⟨counts, hc, hn, hk, ho⟩ := C112_counts ref hyp h
  have h' : ∀ p ∈ ref, hyp.lookup p.1 ≠ none := fun p hp hn => (lookup_none hyp p.1).1 hn (h p hp)
  have hinv : CountsInv counts := by
    have h1 := overlapCounts_eq hyp ref [] h'
    rw [hc] at h1
    cases h1
    exact foldl_bump_inv _ [] ⟨by simp, by simp⟩
  obtain ⟨M, hM, hkM, hmax⟩ := overlapMapping_spec counts hinv
  have hbest : ∀ u k, M.lookup u = some k → ∀ p, overlap ref hyp u p ≤ overlap ref hyp u k := by
    intro u k hl p
    have := hmax u k hl p
    unfold cnt at this
    rwa [ho, ho] at this
  refine ⟨M, ?_, hkM ▸ hn, fun u => ?_, hbest, fun g => ?_⟩
  · unfold maxOverlap
    rw [hc]
    dsimp only
    rw [hM]
  · rw [hkM]; exact hk u
  · unfold agreement
    let S : Finset String := ((framePairs ref hyp).map Prod.snd).toFinset
    have hS : ∀ x ∈ framePairs ref hyp, x.2 ∈ S := fun x hx =>
      List.mem_toFinset.2 (List.mem_map_of_mem hx)
    rw [countP_units _ g S hS, countP_units _ (fun u => (M.lookup u).getD "") S hS]
    refine Finset.sum_le_sum fun u hu => ?_
    obtain ⟨x, hx, rfl⟩ := List.mem_map.1 (List.mem_toFinset.1 hu)
    have hm : x.2 ∈ M.map Prod.fst := by rw [hkM]; exact (hk _).2 ⟨x, hx, rfl⟩
    cases hl : M.lookup x.2 with
    | none => exact absurd hm ((lookup_none M x.2).1 hl)
    | some k => exact hbest _ k hl (g x.2)

/-- An utterance without hypothesis stops the script. -/
theorem C112_missing (ref hyp : Transcript) (h : ∃ p ∈ ref, p.1 ∉ hyp.map Prod.fst) :
    maxOverlap ref hyp = .error .keyError := by
  obtain ⟨p, hp, h1⟩ := h
  unfold maxOverlap
  rw [overlapCounts_error hyp ref [] ⟨p, hp, (lookup_none hyp p.1).2 h1⟩]

/-- The first phone wins a tie. -/
example : maxOverlap [("u1", ["a", "b", "b", "a", "c"])] [("u1", ["x", "x", "y", "y", "y"])] =
    .ok [["x", "a"], ["y", "b"]] := by decide +kernel

example : ∃ M : List (String × String), maxOverlap [("u1", ["a", "b", "b"])] [("u1", ["x", "y", "x"])] =
    .ok (M.map fun p => [p.1, p.2]) ∧ ∀ g : String → String,
      agreement [("u1", ["a", "b", "b"])] [("u1", ["x", "y", "x"])] g ≤
        agreement [("u1", ["a", "b", "b"])] [("u1", ["x", "y", "x"])] fun u => (M.lookup u).getD "" := by
  obtain ⟨M, h1, -, -, -, h2⟩ := C112_optimal [("u1", ["a", "b", "b"])] [("u1", ["x", "y", "x"])] (by simp)
  exact ⟨M, h1, h2⟩

/-! ## C113: mapping a transcription -/

/-- The mapping read is the last valid line of each token. -/
theorem C113_load (lines : List (List String)) (token : String) :
    (loadMapping lines []).lookup token = mapsTo lines token := by
  rw [loadMapping_eq, foldl_set_lookup]
  simp [mapsTo]

/-- Every token is replaced, in place: unknown ones by the given symbol. -/
theorem C113_map (m : List (String × String)) (unk : String) (tr : Transcript)
    (hn : (tr.map Prod.fst).Nodup) (h : unk ≠ "" ∨ ∀ p ∈ tr, ∀ t ∈ p.2, t ∈ m.map Prod.fst) :
    mapTransUnk m unk tr [] = .ok (tr.map fun p => (p.1, p.2.map fun t => (m.lookup t).getD unk)) := by
  have := mapTransUnk_ok m unk (fun t => (m.lookup t).getD unk) tr [] (by simpa using hn) ?_
  · simpa using this
  · intro p hp t ht
    cases hl : m.lookup t with
    | some v => exact Or.inl rfl
    | none =>
      refine Or.inr ⟨rfl, ?_, rfl⟩
      rcases h with h | h
      · exact h
      · exact absurd (h p hp t ht) ((lookup_none m t).1 hl)

/-- Without symbol for them, unknown tokens raise. -/
theorem C113_unknown (m : List (String × String)) (tr : Transcript)
    (h : ∃ p ∈ tr, ∃ t ∈ p.2, t ∉ m.map Prod.fst) : mapTransUnk m "" tr [] = .error .keyError := by
  obtain ⟨p, hp, t, ht, h1⟩ := h
  exact mapTransUnk_error m tr [] ⟨p, hp, t, ht, (lookup_none m t).2 h1⟩

example : mapTransUnk (loadMapping [["x", "a"], ["y", "b", "c"], ["z", "b"], ["z", "c"]] []) "unk"
    [("u1", ["x", "y", "z"])] [] = .ok [("u1", ["a", "unk", "c"])] := by decide +kernel

/-- The three scripts together: the mapping file of largest overlap maps the proposed alignments, without
any unknown unit, to those that agree the most with the reference among all the mappings of the units. -/
theorem C113_pipeline (ref hyp : Transcript) (hh : (hyp.map Prod.fst).Nodup)
    (hk : (ref.map Prod.fst).Perm (hyp.map Prod.fst))
    (hlen : ∀ p ∈ common ref hyp, p.2.length ≤ p.1.length) :
    ∃ lines mapped, maxOverlap ref hyp = .ok lines ∧
      mapTransUnk (loadMapping lines []) "" hyp [] = .ok mapped ∧
      mapped.map Prod.fst = hyp.map Prod.fst ∧
      ∀ g : String → String, agreement ref hyp g ≤ agreement ref mapped id := by
  obtain ⟨M, hM, hMn, hMk, -, hopt⟩ := C112_optimal ref hyp fun p hp => hk.subset (List.mem_map_of_mem hp)
  have hload : loadMapping (M.map fun p => [p.1, p.2]) [] = M := by
    rw [loadMapping_eq, List.filterMap_map]
    have : (twoFields ∘ fun p : String × String => [p.1, p.2]) = some := by
      funext p; rfl
    rw [this, List.filterMap_some, foldl_set_new]
    · simp
    · simpa using hMn
  have hseen : ∀ p ∈ hyp, ∀ t ∈ p.2, t ∈ M.map Prod.fst := by
    intro p hp t ht
    rw [hMk]
    obtain ⟨u, hs⟩ := p
    obtain ⟨⟨u', r⟩, hq, rfl⟩ := List.mem_map.1 (hk.symm.subset (List.mem_map_of_mem (f := Prod.fst) hp))
    dsimp only at hp ht
    have hc : (r, hs) ∈ common ref hyp := by
      unfold common
      refine List.mem_filterMap.2 ⟨(u', r), hq, ?_⟩
      rw [lookup_of_mem hyp hh u' hs hp]
      rfl
    obtain ⟨i, hi, hit⟩ := List.mem_iff_getElem.1 ht
    have hir : i < r.length := lt_of_lt_of_le hi (hlen _ hc)
    refine ⟨(r[i], t), List.mem_flatMap.2 ⟨_, hc, ?_⟩, rfl⟩
    rw [List.mem_iff_getElem]
    exact ⟨i, by simp [hi, hir], by simp [hit]⟩
  refine ⟨_, hyp.map fun p => (p.1, p.2.map fun t => (M.lookup t).getD ""), hM, ?_, ?_, fun g => ?_⟩
  · rw [hload]
    exact C113_map M "" hyp hh (Or.inr hseen)
  · rw [List.map_map]; rfl
  · refine le_trans (hopt g) (le_of_eq ?_)
    unfold agreement framePairs
    have hc : common ref (hyp.map fun p => (p.1, p.2.map fun t => (M.lookup t).getD "")) =
        (common ref hyp).map fun p => (p.1, p.2.map fun t => (M.lookup t).getD "") := by
      unfold common
      rw [List.map_filterMap]
      refine List.filterMap_congr fun p _ => ?_
      rw [lookup_map]
      cases hyp.lookup p.1 <;> rfl
    rw [hc, List.flatMap_map]
    rw [List.countP_flatMap, List.countP_flatMap]
    congr 1
    refine List.map_congr_left fun p _ => ?_
    simp only [Function.comp, List.zip_map_right, List.countP_map]
    rfl

example : ∃ lines mapped, maxOverlap [("u1", ["a", "b", "b"])] [("u1", ["x", "y", "y"])] = .ok lines ∧
    mapTransUnk (loadMapping lines []) "" [("u1", ["x", "y", "y"])] [] = .ok mapped ∧
    agreement [("u1", ["a", "b", "b"])] mapped id = 3 :=
  ⟨[["x", "a"], ["y", "b"]], [("u1", ["a", "b", "b"])], by decide +kernel, by decide +kernel, by decide +kernel⟩

end Verif.Props
