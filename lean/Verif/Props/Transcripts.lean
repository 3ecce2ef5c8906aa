import Std.Data.String.ToNat
import Verif.Model.Transcripts
import Verif.Lemmas.Recipes
import Mathlib.Data.List.Chain

/-!
# C145, C146, C147: transcriptions from a lexicon; prefixes and names of units
-/

namespace Verif.Props

open Verif Pipeline Transcripts Recipes

/-! ## C145 -/

theorem unitName_inj (l : String) (m n : ℕ) (h : l ++ "_" ++ Nat.repr m = l ++ "_" ++ Nat.repr n) : m = n :=
  Nat.repr_injective (by simpa using h)

theorem assignIds_spec (l : String) : ∀ (phones : List String) (d : List (String × String)),
    (d.map Prod.fst).Nodup → d.map Prod.snd = (List.range d.length).map (fun i => l ++ "_" ++ Nat.repr (i + 1)) →
    ∃ d', assignIds (some l) phones d = .ok d' ∧ (d'.map Prod.fst).Nodup ∧
      d'.map Prod.snd = (List.range d'.length).map (fun i => l ++ "_" ++ Nat.repr (i + 1)) ∧
      ∀ p, p ∈ d'.map Prod.fst ↔ p ∈ d.map Prod.fst ∨ p ∈ phones
  | [], d, h1, h2 => ⟨d, rfl, h1, h2, by simp⟩
  | p :: phones, d, h1, h2 => by
    by_cases hp : p ∈ d.map Prod.fst
    · obtain ⟨d', h3, h4, h5, h6⟩ := assignIds_spec l phones d h1 h2
      refine ⟨d', by rw [assignIds, if_pos hp]; exact h3, h4, h5, fun q => ?_⟩
      rw [h6, List.mem_cons]
      constructor
      · rintro (h | h)
        · exact .inl h
        · exact .inr (.inr h)
      · rintro (h | rfl | h)
        · exact .inl h
        · exact .inl hp
        · exact .inr h
    · have hnew := dictSet_new d p (l ++ "_" ++ Nat.repr (d.length + 1)) hp
      obtain ⟨d', h3, h4, h5, h6⟩ := assignIds_spec l phones (dictSet d p (l ++ "_" ++ Nat.repr (d.length + 1)))
        (dictSet_nodup _ _ _ h1) (by
          rw [hnew, List.map_append, h2, List.length_append, List.length_singleton, List.range_succ, List.map_append]
          rfl)
      refine ⟨d', by rw [assignIds, if_neg hp]; exact h3, h4, h5, fun q => ?_⟩
      rw [h6, hnew]
      simp [or_assoc]

/-- Every phone of the lexicon gets one id, `lang_1`, `lang_2`, … without gaps, and no two phones the same one. -/
theorem C145_ids (l : String) (phones : List String) :
    ∃ d, assignIds (some l) phones [] = .ok d ∧ (∀ p, (optGet d p).isSome ↔ p ∈ phones) ∧
      d.map Prod.snd = (List.range d.length).map (fun i => l ++ "_" ++ Nat.repr (i + 1)) ∧
      ∀ p p' n, optGet d p = some n → optGet d p' = some n → p = p' := by
  obtain ⟨d, h1, h2, h3, h4⟩ := assignIds_spec l phones [] (by simp) (by simp)
  refine ⟨d, h1, fun p => by rw [optGet_isSome, h4]; simp, h3, ?_⟩
  intro p p' n hp hp'
  have m1 := dictGet_mem d p n ((optGet_some _ _ _).1 hp)
  have m2 := dictGet_mem d p' n ((optGet_some _ _ _).1 hp')
  have hn : (d.map Prod.snd).Nodup := by
    rw [h3]
    exact List.Nodup.map (fun i j h => by have := unitName_inj _ _ _ h; omega) List.nodup_range
  exact (Prod.mk.inj (List.inj_on_of_nodup_map hn m1 m2 rfl)).1

example : assignIds (some "sw") ["a", "b", "a"] [] = .ok [("a", "sw_1"), ("b", "sw_2")] := by decide +kernel

/-- The phones of a word that are kept. -/
def keptPhones (keepSil : Bool) (nonsil : List String) (lexicon : List (String × List String)) (word : String) :
    List String :=
  ((optGet lexicon word).getD []).filter fun p => keepSil || decide (p ∈ nonsil)

theorem wordPhones_known (lang : Option String) (keepSil : Bool) (nonsil : List String)
    (lexicon : List (String × List String)) (word : String) (h : (optGet lexicon word).isSome) :
    wordPhones lang keepSil nonsil lexicon word = .ok (keptPhones keepSil nonsil lexicon word) := by
  obtain ⟨ps, hps⟩ := Option.isSome_iff_exists.1 h
  unfold wordPhones keptPhones
  rw [(optGet_some _ _ _).1 hps, hps]
  cases keepSil <;> simp

/-- An utterance of known words, whose phones have ids, becomes the ids of their phones. -/
theorem C145_line (lang : Option String) (keepSil : Bool) (nonsil : List String) (lexicon : List (String × List String))
    (ids : List (String × String)) : ∀ (words : List String), (∀ w ∈ words, (optGet lexicon w).isSome) →
      (∀ w ∈ words, ∀ p ∈ keptPhones keepSil nonsil lexicon w, (optGet ids p).isSome) →
      ∃ l, uttIds lang keepSil nonsil lexicon ids words = .ok (some l) ∧
        List.Forall₂ (fun p i => optGet ids p = some i) (words.flatMap (keptPhones keepSil nonsil lexicon)) l
  | [], _, _ => ⟨[], rfl, .nil⟩
  | w :: words, h1, h2 => by
    obtain ⟨l, h3, h4⟩ := C145_line lang keepSil nonsil lexicon ids words (fun v hv => h1 v (by simp [hv]))
      (fun v hv => h2 v (by simp [hv]))
    obtain ⟨l0, h5, h6⟩ := listComp_forall (f := dictGet ids) (l := keptPhones keepSil nonsil lexicon w) fun p hp => by
      obtain ⟨v, hv⟩ := Option.isSome_iff_exists.1 (h2 w (by simp) p hp)
      exact ⟨v, (optGet_some _ _ _).1 hv⟩
    refine ⟨l0 ++ l, ?_, ?_⟩
    · simp only [uttIds, wordPhones_known lang keepSil nonsil lexicon w (h1 w (by simp)), h5, h3]
    · rw [List.flatMap_cons]
      exact List.rel_append (h6.imp fun p i h => (optGet_some _ _ _).2 h) h4

/-- The words `hi` and `ho`. -/
def exLex : List (String × List String) := [("hi", ["h", "SIL", "i"]), ("ho", ["h", "o"])]

example : uttIds (some "sw") false ["h", "i", "o"] exLex [("h", "sw_1"), ("SIL", "sw_2"), ("i", "sw_3"), ("o", "sw_4")]
    ["ho", "hi"] = .ok (some ["sw_1", "sw_4", "sw_1", "sw_3"]) := by decide +kernel

example : (∀ w ∈ ["ho", "hi"], (optGet exLex w).isSome) := by decide +kernel

/-- With a language name, an utterance is left out without notice as soon as one of its phones has no id. -/
theorem uttIds_dropped (l : String) (keepSil : Bool) (nonsil : List String) (lexicon : List (String × List String))
    (ids : List (String × String)) : ∀ (words : List String), (∃ w ∈ words, ∃ ps e,
      wordPhones (some l) keepSil nonsil lexicon w = .ok ps ∧ Eval.listComp (dictGet ids) ps = .error e) →
      uttIds (some l) keepSil nonsil lexicon ids words = .ok none
  | [], h => by simp at h
  | w :: words, h => by
    have hw : ∃ ps, wordPhones (some l) keepSil nonsil lexicon w = .ok ps := by
      unfold wordPhones unitName
      cases dictGet lexicon w with
      | ok ps => exact ⟨_, rfl⟩
      | error e => exact ⟨_, rfl⟩
    obtain ⟨ps, hps⟩ := hw
    simp only [uttIds, hps]
    cases hc : Eval.listComp (dictGet ids) ps with
    | error e => rfl
    | ok l0 =>
      obtain ⟨w', hw', ps', e, h1, h2⟩ := h
      rcases List.mem_cons.1 hw' with rfl | hw'
      · rw [hps, Except.ok.injEq] at h1
        rw [← h1, hc] at h2
        cases h2
      · simp only [uttIds_dropped l keepSil nonsil lexicon ids words ⟨w', hw', ps', e, h1, h2⟩]

/-- The violation: an utterance with an unknown word is left out, instead of getting the id `lang_0` that the script
makes for such words. -/
theorem C145_unknown_dropped (l : String) (keepSil : Bool) (nonsil : List String)
    (lexicon : List (String × List String)) (ids : List (String × String)) (hu : optGet ids "_" = none)
    (words : List String) (w : String) (hw : w ∈ words) (hn : optGet lexicon w = none) :
    uttIds (some l) keepSil nonsil lexicon ids words = .ok none := by
  apply uttIds_dropped
  refine ⟨w, hw, (l ++ "_" ++ Nat.repr 0).toList.map Char.toString, .keyError, ?_, ?_⟩
  · unfold wordPhones unitName
    rw [(optGet_none _ _).1 hn]
  · apply Eval.listComp_error
    · intro x _ e he
      exact dictGet_err ids x e he
    · refine ⟨"_", ?_, .keyError, (optGet_none _ _).1 hu⟩
      rw [List.mem_map]
      exact ⟨'_', by simp, rfl⟩

example : optGet [("h", "sw_1")] "_" = none ∧ optGet exLex "hey" = none := by decide +kernel

/-- The violation: when the characters of the name are phones, an unknown word is written as these phones. -/
theorem C145_unknown_fails :
    prepareAlffa (some "a") true [["w", "a", "_", "0"]] none none [["utt", "x"]] =
      .ok ([("a", "a_1"), ("_", "a_2"), ("0", "a_3")], [["utt", "sil", "a_1", "a_2", "a_3", "sil"]]) := by
  decide +kernel

theorem readDict_keys : ∀ (lines : List (List String)) (d : List (String × List String)), [] ∉ lines →
    (d.map Prod.fst).Nodup → ∃ d', readDict lines d = .ok d' ∧ (d'.map Prod.fst).Nodup ∧
      ∀ k, k ∈ d'.map Prod.fst ↔ k ∈ d.map Prod.fst ∨ ∃ v, (k :: v) ∈ lines
  | [], d, _, hd => ⟨d, rfl, hd, by simp⟩
  | [] :: _, _, h, _ => absurd (by simp) h
  | (k :: v) :: rest, d, h, hd => by
    obtain ⟨d', h1, h2, h3⟩ := readDict_keys rest (dictSet d k v) (fun h' => h (by simp [h'])) (dictSet_nodup d k v hd)
    refine ⟨d', h1, h2, fun q => ?_⟩
    rw [h3, dictSet_keys]
    constructor
    · rintro (h' | ⟨v', h'⟩)
      · split at h'
        · exact .inl h'
        · rcases List.mem_append.1 h' with h' | h'
          · exact .inl h'
          · simp only [List.mem_singleton] at h'
            exact .inr ⟨v, by simp [h']⟩
      · exact .inr ⟨v', by simp [h']⟩
    · rintro (h' | ⟨v', h'⟩)
      · left
        split
        · exact h'
        · simp [h']
      · rcases List.mem_cons.1 h' with h' | h'
        · simp only [List.cons.injEq] at h'
          left
          split
          · rw [h'.1]; assumption
          · simp [h'.1]
        · exact .inr ⟨v', h'⟩

/-- The whole script, when there is no file of phones yet: if every word of the text is in the lexicon, every utterance
is written, in order, as the ids of the phones of its words between two `sil`. -/
theorem C145_all_written (l : String) (keepSil : Bool) (lexTxt text : List (List String)) (nonsil : Option (List String))
    (hl : [] ∉ lexTxt) (ht : [] ∉ text)
    (hk : ∀ utt words, (utt :: words) ∈ text → ∀ w ∈ words, ∃ ps, (w :: ps) ∈ lexTxt) :
    ∃ lexicon tr ids out, readDict lexTxt [] = .ok lexicon ∧ readDict text [] = .ok tr ∧
      prepareAlffa (some l) keepSil lexTxt none nonsil text = .ok (ids, out) ∧
      List.Forall₂ (fun u line => ∃ is, line = u.1 :: "sil" :: (is ++ ["sil"]) ∧
        List.Forall₂ (fun p i => optGet ids p = some i)
          (u.2.flatMap (keptPhones keepSil (nonsil.getD (ids.map Prod.fst)) lexicon)) is) tr out := by
  obtain ⟨lexicon, h1, h2, h3⟩ := readDict_keys lexTxt [] hl (by simp)
  obtain ⟨tr, h4, h5, h6⟩ := readDict_keys text [] ht (by simp)
  obtain ⟨ids, h7, h8, _, _⟩ := C145_ids l (lexicon.map Prod.snd).flatten
  have htr : ∀ (lines : List (List String)) (d d' : List (String × List String)), readDict lines d = .ok d' →
      ∀ u ∈ d', u ∈ d ∨ (u.1 :: u.2) ∈ lines := by
    intro lines
    induction lines with
    | nil => intro d d' h u hu; cases h; exact .inl hu
    | cons x lines ih =>
      intro d d' h u hu
      match x, h with
      | k :: v, h =>
        rcases ih _ _ h u hu with h' | h'
        · rcases dictSet_mem d k v u h' with h' | h'
          · exact .inl h'
          · rw [h']; exact .inr (by simp)
        · exact .inr (by simp [h'])
  have hwords : ∀ u ∈ tr, ∀ w ∈ u.2, (optGet lexicon w).isSome := by
    intro u hu w hw
    rw [optGet_isSome, h3]
    rcases htr text [] tr h4 u hu with h | h
    · simp at h
    · exact .inr (hk u.1 u.2 h w hw)
  have hphones : ∀ ns : List String, ∀ w, ∀ p ∈ keptPhones keepSil ns lexicon w, (optGet ids p).isSome := by
    intro ns w p hp
    rw [h8]
    unfold keptPhones at hp
    have hp' := (List.mem_filter.1 hp).1
    cases hg : optGet lexicon w with
    | none => rw [hg] at hp'; simp at hp'
    | some ps =>
      rw [hg] at hp'
      exact List.mem_flatten.2 ⟨ps, List.mem_map.2 ⟨(w, ps), dictGet_mem _ _ _ ((optGet_some _ _ _).1 hg), rfl⟩, hp'⟩
  have hwrite : ∀ (t : List (String × List String)), (∀ u ∈ t, ∀ w ∈ u.2, (optGet lexicon w).isSome) →
      ∃ out, writeUtts (some l) keepSil (nonsil.getD (ids.map Prod.fst)) lexicon ids t = .ok out ∧
      List.Forall₂ (fun u line => ∃ is, line = u.1 :: "sil" :: (is ++ ["sil"]) ∧
        List.Forall₂ (fun p i => optGet ids p = some i)
          (u.2.flatMap (keptPhones keepSil (nonsil.getD (ids.map Prod.fst)) lexicon)) is) t out := by
    intro t
    induction t with
    | nil => intro _; exact ⟨[], rfl, .nil⟩
    | cons u t ih =>
      intro h
      obtain ⟨out, ho1, ho2⟩ := ih fun v hv => h v (by simp [hv])
      obtain ⟨is, hi1, hi2⟩ := C145_line (some l) keepSil (nonsil.getD (ids.map Prod.fst)) lexicon ids u.2
        (h u (by simp)) (fun w _ => hphones _ w)
      exact ⟨(u.1 :: "sil" :: (is ++ ["sil"])) :: out, by simp only [writeUtts, hi1, ho1], .cons ⟨is, rfl, hi2⟩ ho2⟩
  obtain ⟨out, ho1, ho2⟩ := hwrite tr hwords
  refine ⟨lexicon, tr, ids, out, h1, h4, ?_, ho2⟩
  unfold prepareAlffa
  simp only [h1, phoneIds, h7, h4, ho1]

example : prepareAlffa (some "sw") false [["hi", "h", "SIL", "i"], ["ho", "h", "o"]] none (some ["h", "i", "o"])
    [["u1", "ho", "hi"], ["u2", "hey"]] =
    .ok ([("h", "sw_1"), ("SIL", "sw_2"), ("i", "sw_3"), ("o", "sw_4")],
      [["u1", "sil", "sw_1", "sw_4", "sw_1", "sw_3", "sil"]]) := by decide +kernel

/-- Errors: without `--lang`, a lexicon with phones, or an unknown word when the phones are known already; empty lines of
the lexicon; lines of the file of phones without an id. -/
theorem C145_errors (keepSil : Bool) (nonsil : List String) (lexicon : List (String × List String))
    (ids : List (String × String)) :
    (∀ p phones, assignIds none (p :: phones) [] = .error .typeError) ∧
    (∀ w words, optGet lexicon w = none → uttIds none keepSil nonsil lexicon ids (w :: words) = .error .typeError) ∧
    (∀ d rest, readDict ([] :: rest) d = .error .indexError) ∧
    (∀ a rest, readIds ([a] :: rest) ids = .error .indexError) := by
  refine ⟨fun p phones => by simp [assignIds, unitName], ?_, fun _ _ => rfl, fun _ _ => rfl⟩
  intro w words h
  simp only [uttIds, wordPhones, (optGet_none _ _).1 h, unitName]

example : optGet exLex "hey" = none := by decide +kernel

theorem forall₂_right_mem {α β : Type} {R : α → β → Prop} : ∀ {l : List α} {r : List β}, List.Forall₂ R l r →
    ∀ y ∈ r, ∃ x ∈ l, R x y
  | _, _, .nil, _, h => by simp at h
  | _, _, .cons (a := a) ha hl, y, h => by
    rcases List.mem_cons.1 h with rfl | h
    · exact ⟨a, by simp, ha⟩
    · obtain ⟨x, hx, hR⟩ := forall₂_right_mem hl y h
      exact ⟨x, by simp [hx], hR⟩

/-! ## C146 -/

/-- Words are cleaned character by character: letters and digits become lower case, diacritics stay if asked for, and
everything else goes. -/
theorem C146_clean (u : Unicode) (di : Bool) :
    clean u di [] = [] ∧ (∀ a b, clean u di (a ++ b) = clean u di a ++ clean u di b) ∧
    (∀ c, u.alnum c → clean u di [c] = u.lower c) ∧
    (∀ c, ¬ u.alnum c → u.combining c → clean u di [c] = if di then u.lower c else []) ∧
    (∀ c, ¬ u.alnum c → ¬ u.combining c → clean u di [c] = []) := by
  refine ⟨rfl, fun a b => by simp [clean], fun c h => by simp [clean, h], fun c h h' => ?_, fun c h h' => ?_⟩
  · cases di <;> simp [clean, h, h']
  · cases di <;> simp [clean, h, h']

/-- What a group of letters looks like: one letter, or `gb`, with its diacritics. -/
def GroupShape (u : Unicode) (g : List Char) : Prop :=
  ∃ c rest, (g = c :: rest ∨ (c = 'g' ∧ g = c :: 'b' :: rest)) ∧ ∀ x ∈ rest, u.combining x

theorem groupFrom_spec (u : Unicode) : ∀ (word last : List Char), GroupShape u last →
    (groupFrom u last word).flatten = last ++ word ∧ (∀ g ∈ groupFrom u last word, GroupShape u g) ∧
    (groupFrom u last word).IsChain (fun a b => ∃ c rest, b = c :: rest ∧ ¬ u.combining c ∧ ¬ (c = 'b' ∧ a = ['g'])) ∧
    ∃ more, (groupFrom u last word).head? = some (last ++ more) ∧ (∀ c w, word = c :: w → ¬ u.combining c →
      ¬ (c = 'b' ∧ last = ['g']) → more = [])
  | [], last, h => ⟨by simp [groupFrom], by simpa [groupFrom] using h, by simp [groupFrom], [], by simp [groupFrom]⟩
  | c :: word, last, h => by
    have hadd : ∀ (hc : u.combining c ∨ (c = 'b' ∧ last = ['g'])), GroupShape u (last ++ [c]) := by
      rintro (hc | ⟨rfl, rfl⟩)
      · obtain ⟨a, rest, h1, h2⟩ := h
        refine ⟨a, rest ++ [c], ?_, ?_⟩
        · rcases h1 with rfl | ⟨h0, rfl⟩
          · exact .inl rfl
          · exact .inr ⟨h0, rfl⟩
        · intro x hx
          rcases List.mem_append.1 hx with hx | hx
          · exact h2 x hx
          · rw [List.mem_singleton.1 hx]; exact hc
      · exact ⟨'g', [], .inr ⟨rfl, rfl⟩, by simp⟩
    by_cases h1 : u.combining c
    · obtain ⟨a1, a2, a3, more, a4, _⟩ := groupFrom_spec u word (last ++ [c]) (hadd (.inl h1))
      rw [groupFrom, if_pos h1]
      refine ⟨by rw [a1]; simp, a2, a3, c :: more, by rw [a4]; simp, ?_⟩
      intro c' w hw hc' _
      simp only [List.cons.injEq] at hw
      exact absurd (hw.1 ▸ h1) hc'
    · by_cases h2 : c = 'b' ∧ last = ['g']
      · obtain ⟨a1, a2, a3, more, a4, _⟩ := groupFrom_spec u word (last ++ [c]) (hadd (.inr h2))
        rw [groupFrom, if_neg h1, if_pos h2]
        refine ⟨by rw [a1]; simp, a2, a3, c :: more, by rw [a4]; simp, ?_⟩
        intro c' w hw _ hg
        simp only [List.cons.injEq] at hw
        exact absurd (hw.1 ▸ h2) hg
      · obtain ⟨a1, a2, a3, more, a4, _⟩ := groupFrom_spec u word [c] ⟨c, [], .inl rfl, by simp⟩
        rw [groupFrom, if_neg h1, if_neg h2]
        refine ⟨by rw [List.flatten_cons, a1]; simp, ?_, ?_, [], by simp, by simp⟩
        · intro g hg
          rcases List.mem_cons.1 hg with rfl | hg
          · exact h
          · exact a2 g hg
        · cases hg : groupFrom u [c] word with
          | nil => simp
          | cons g gs =>
            rw [hg] at a3 a4
            simp only [List.head?_cons, Option.some.injEq] at a4
            exact List.isChain_cons_cons.2 ⟨⟨c, more, a4, h1, h2⟩, a3⟩

/-- The letters of a word are cut, none lost, before every letter that is not a diacritic, except between `g` and `b`. -/
theorem C146_group (u : Unicode) (word : List Char) :
    (group u word).flatten = word ∧ (∀ g ∈ group u word, GroupShape u g) ∧
    (group u word).IsChain fun a b => ∃ c rest, b = c :: rest ∧ ¬ u.combining c ∧ ¬ (c = 'b' ∧ a = ['g']) := by
  cases word with
  | nil => simp [group]
  | cons c word =>
    obtain ⟨h1, h2, h3, _⟩ := groupFrom_spec u word [c] ⟨c, [], .inl rfl, by simp⟩
    exact ⟨h1, h2, h3⟩

/-- Letters of the alphabet; the accents are combining. -/
def exUni : Unicode := ⟨fun c => c = '\'' ∨ c = '`', fun c => c.isAlphanum, fun c => [c.toLower]⟩

example : clean exUni true "G-be'.".toList = "gbe'".toList ∧ clean exUni false "G-be'.".toList = "gbe".toList := by
  decide +kernel

example : group exUni "gbe'`gg'b".toList = ["gb".toList, "e'`".toList, "g".toList, "g'".toList, "b".toList] := by
  decide +kernel

/-- Two groups have the same key if and only if they have the same letters in some order. -/
theorem C146_key (p q : List Char) : phoneKey p = phoneKey q ↔ p.Perm q := by
  constructor
  · intro h
    exact ((List.perm_insertionSort (· ≤ ·) p).symm.trans (by rw [← phoneKey, h, phoneKey])).trans
      (List.perm_insertionSort (· ≤ ·) q)
  · intro h
    refine List.Perm.eq_of_pairwise (le := (· ≤ ·)) ?_ (List.pairwise_insertionSort _ _) (List.pairwise_insertionSort _ _)
      (((List.perm_insertionSort (· ≤ ·) p).trans h).trans (List.perm_insertionSort (· ≤ ·) q).symm)
    intro a b _ _ hab hba
    exact le_antisymm hab hba

example : phoneKey "e'`".toList = phoneKey "e`'".toList := by decide +kernel

/-- The state of the dictionary of phones: it begins with `sil`, then `lang_2`, `lang_3`, … -/
def IdsOk (lang : String) (ids : List (List Char × String)) : Prop :=
  (ids.map Prod.fst).Nodup ∧ optGet ids "sil".toList = some "sil" ∧
  ∃ n, ids.length = n + 1 ∧ ids.map Prod.snd = "sil" :: (List.range n).map fun i => lang ++ "_" ++ Nat.repr (i + 2)

theorem unitName_ne_sil (lang : String) (n : ℕ) : lang ++ "_" ++ Nat.repr n ≠ "sil" := by
  intro h
  have h1 := congrArg String.toList h
  have h2 : '_' ∈ ("sil" : String).toList := by rw [← h1]; simp
  revert h2
  decide +kernel

theorem IdsOk.names_nodup {lang : String} {ids : List (List Char × String)} (h : IdsOk lang ids) :
    (ids.map Prod.snd).Nodup := by
  obtain ⟨_, _, n, _, h2⟩ := h
  rw [h2, List.nodup_cons]
  constructor
  · intro hm
    obtain ⟨i, _, hi⟩ := List.mem_map.1 hm
    exact unitName_ne_sil _ _ hi
  · exact List.Nodup.map (fun i j h => by have := unitName_inj _ _ _ h; omega) List.nodup_range

theorem IdsOk.inj {lang : String} {ids : List (List Char × String)} (h : IdsOk lang ids) {k k' : List Char} {n : String}
    (h1 : optGet ids k = some n) (h2 : optGet ids k' = some n) : k = k' :=
  (Prod.mk.inj (List.inj_on_of_nodup_map h.names_nodup (dictGet_mem _ _ _ ((optGet_some _ _ _).1 h1))
    (dictGet_mem _ _ _ ((optGet_some _ _ _).1 h2)) rfl)).1

theorem phoneKey_ne_sil (p : List Char) : phoneKey p ≠ "sil".toList := by
  intro h
  have := List.pairwise_insertionSort (· ≤ ·) p
  rw [← phoneKey, h] at this
  revert this
  decide +kernel

theorem IdsOk.ne_sil {lang : String} {ids : List (List Char × String)} (h : IdsOk lang ids) {p : List Char} {n : String}
    (h1 : optGet ids (phoneKey p) = some n) : n ≠ "sil" := by
  rintro rfl
  exact phoneKey_ne_sil p (h.inj h1 h.2.1)

/-- The entries of `a` are entries of `b`. -/
def IdsLe (a b : List (List Char × String)) : Prop := ∀ k v, optGet a k = some v → optGet b k = some v

theorem addPhone_spec (lang : String) (ids : List (List Char × String)) (p : List Char) (h : IdsOk lang ids) :
    IdsOk lang (addPhone lang ids p) ∧ IdsLe ids (addPhone lang ids p) ∧
      (optGet (addPhone lang ids p) (phoneKey p)).isSome := by
  unfold addPhone
  by_cases hp : phoneKey p ∈ ids.map Prod.fst
  · rw [if_pos hp]
    exact ⟨h, fun _ _ h => h, (optGet_isSome _ _).2 hp⟩
  · rw [if_neg hp]
    obtain ⟨h1, h2, n, h3, h4⟩ := h
    refine ⟨⟨dictSet_nodup _ _ _ h1, ?_, n + 1, ?_, ?_⟩, ?_, ?_⟩
    · rw [optGet_set, if_neg (Ne.symm (phoneKey_ne_sil p)), h2]
    · rw [dictSet_new _ _ _ hp, List.length_append, h3, List.length_singleton]
    · rw [dictSet_new _ _ _ hp, List.map_append, h4, h3, List.range_succ, List.map_append]
      rfl
    · intro k v hk
      rw [optGet_set, if_neg, hk]
      rintro rfl
      exact hp ((optGet_isSome _ _).1 (by rw [hk]; rfl))
    · rw [optGet_set, if_pos rfl]; rfl

theorem addPhones_spec (lang : String) : ∀ (phones : List (List Char)) (ids : List (List Char × String)), IdsOk lang ids →
    IdsOk lang (phones.foldl (addPhone lang) ids) ∧ IdsLe ids (phones.foldl (addPhone lang) ids) ∧
      ∀ p ∈ phones, (optGet (phones.foldl (addPhone lang) ids) (phoneKey p)).isSome
  | [], _, h => ⟨h, fun _ _ h => h, by simp⟩
  | p :: phones, ids, h => by
    obtain ⟨h1, h2, h3⟩ := addPhone_spec lang ids p h
    obtain ⟨h4, h5, h6⟩ := addPhones_spec lang phones _ h1
    refine ⟨h4, fun k v hk => h5 k v (h2 k v hk), ?_⟩
    intro q hq
    rcases List.mem_cons.1 hq with rfl | hq
    · obtain ⟨v, hv⟩ := Option.isSome_iff_exists.1 h3
      exact Option.isSome_iff_exists.2 ⟨v, h5 _ _ hv⟩
    · exact h6 q hq

/-- Specification: the groups of letters of a sentence, `none` for a word in brackets. -/
def sentItems (u : Unicode) (diacritics : Bool) (sent : List (List Char)) : List (Option (List Char)) :=
  sent.flatMap fun w => if w.head? = some '[' then [none] else (group u (clean u diacritics w)).map some

/-- Specification: the pauses are dropped at the beginning (`prev`) and after another pause. -/
def squeeze {α : Type} : Bool → List (Option α) → List (Option α)
  | _, [] => []
  | prev, none :: l => if prev then squeeze true l else none :: squeeze true l
  | _, some a :: l => some a :: squeeze false l

/-- Specification: `n` is what is written for an item. -/
def Written (ids : List (List Char × String)) : Option (List Char) → String → Prop
  | none, n => n = "sil"
  | some p, n => n ≠ "sil" ∧ optGet ids (phoneKey p) = some n

theorem Written.mono {a b : List (List Char × String)} (h : IdsLe a b) {x : Option (List Char)} {n : String}
    (hw : Written a x n) : Written b x n := by
  cases x with
  | none => exact hw
  | some p => exact ⟨hw.1, h _ _ hw.2⟩

theorem squeeze_some {α : Type} : ∀ (l : List α) (prev : Bool) (r : List (Option α)), l ≠ [] →
    squeeze prev (l.map some ++ r) = l.map some ++ squeeze false r
  | [], _, _, h => absurd rfl h
  | [a], prev, r, _ => by simp [squeeze]
  | a :: b :: l, prev, r, _ => by
    have := squeeze_some (b :: l) false r (by simp)
    simp only [List.map_cons, List.cons_append, squeeze] at this ⊢
    rw [this]

theorem group_ne_nil (u : Unicode) (w : List Char) (h : w ≠ []) : group u w ≠ [] := by
  intro hg
  have := (C146_group u w).1
  rw [hg] at this
  exact h this.symm

theorem uttLoop_spec (u : Unicode) (di : Bool) (lang : String) : ∀ (sent : List (List Char))
    (ids : List (List Char × String)) (t : List (List String)), IdsOk lang ids →
    ∃ ids' t', uttLoop u di lang sent ids t = .ok (ids', t ++ t') ∧ IdsOk lang ids' ∧ IdsLe ids ids' ∧
      List.Forall₂ (Written ids') (squeeze (decide (t = [] ∨ t.getLast? = some ["sil"])) (sentItems u di sent)) t'.flatten
  | [], ids, t, h => ⟨ids, [], by simp [uttLoop], h, fun _ _ h => h, by simp [sentItems, squeeze]⟩
  | w :: sent, ids, t, h => by
    by_cases hb : w.head? = some '['
    · have hi : sentItems u di (w :: sent) = none :: sentItems u di sent := by
        simp [sentItems, List.flatMap_cons, hb]
      by_cases ht : t ≠ [] ∧ t.getLast? ≠ some ["sil"]
      · obtain ⟨ids', t', h1, h2, h3, h4⟩ := uttLoop_spec u di lang sent ids (t ++ [["sil"]]) h
        refine ⟨ids', ["sil"] :: t', ?_, h2, h3, ?_⟩
        · rw [uttLoop, if_pos hb, if_pos ht, h1]; simp
        · have hd : decide (t = [] ∨ t.getLast? = some ["sil"]) = false := by
            rw [decide_eq_false_iff_not, not_or]; exact ht
          rw [hi, hd]
          simp only [squeeze, Bool.false_eq_true, if_false, List.flatten_cons, List.singleton_append]
          refine .cons rfl ?_
          simpa using h4
      · obtain ⟨ids', t', h1, h2, h3, h4⟩ := uttLoop_spec u di lang sent ids t h
        refine ⟨ids', t', ?_, h2, h3, ?_⟩
        · rw [uttLoop, if_pos hb, if_neg ht, h1]
        · have hd : decide (t = [] ∨ t.getLast? = some ["sil"]) = true := by
            rw [decide_eq_true_iff]; tauto
          rw [hd] at h4
          rw [hi, hd]
          simpa only [squeeze, if_true] using h4
    · have hi : sentItems u di (w :: sent) = (group u (clean u di w)).map some ++ sentItems u di sent := by
        simp [sentItems, List.flatMap_cons, hb]
      by_cases hc : clean u di w = []
      · obtain ⟨ids', t', h1, h2, h3, h4⟩ := uttLoop_spec u di lang sent ids t h
        refine ⟨ids', t', ?_, h2, h3, ?_⟩
        · rw [uttLoop, if_neg hb, if_pos hc, h1]
        · rw [hi, hc]; simpa [group] using h4
      · obtain ⟨a1, a2, a3⟩ := addPhones_spec lang (group u (clean u di w)) ids h
        obtain ⟨ws, b1, b2⟩ := listComp_forall (f := fun p => dictGet
          ((group u (clean u di w)).foldl (addPhone lang) ids) (phoneKey p)) (l := group u (clean u di w)) fun p hp => by
            obtain ⟨v, hv⟩ := Option.isSome_iff_exists.1 (a3 p hp)
            exact ⟨v, (optGet_some _ _ _).1 hv⟩
        obtain ⟨ids', t', h1, h2, h3, h4⟩ := uttLoop_spec u di lang sent _ (t ++ [ws]) a1
        refine ⟨ids', ws :: t', ?_, h2, fun k v hk => h3 k v (a2 k v hk), ?_⟩
        · rw [uttLoop, if_neg hb, if_neg hc]
          simp only [b1, h1]
          simp
        · have hg := group_ne_nil u _ hc
          have hw : List.Forall₂ (Written ids') ((group u (clean u di w)).map some) ws := by
            rw [List.forall₂_map_left_iff]
            refine b2.imp fun p n hn => ?_
            have hn' := (optGet_some _ _ _).2 hn
            exact ⟨a1.ne_sil hn', h3 _ _ hn'⟩
          have hne : ws ≠ ["sil"] := by
            rintro rfl
            cases hgr : group u (clean u di w) with
            | nil => exact hg hgr
            | cons p ps =>
              rw [hgr] at hw
              cases hw with
              | cons hx _ => exact hx.1 rfl
          rw [hi, squeeze_some _ _ _ hg, List.flatten_cons]
          refine List.rel_append hw ?_
          simpa [hne] using h4

theorem googleLoop_spec (u : Unicode) (di sil : Bool) (lang : String) : ∀ (text : List (String × List (List Char)))
    (ids : List (List Char × String)), IdsOk lang ids →
    ∃ ids' out, googleLoop u di sil lang text ids = .ok (ids', out) ∧ IdsOk lang ids' ∧ IdsLe ids ids' ∧
      List.Forall₂ (fun x y => y.1 = x.1 ∧ ∃ l, y.2 = (if sil then ["sil"] ++ l ++ ["sil"] else l) ∧
        List.Forall₂ (Written ids') (squeeze true (sentItems u di x.2)) l) text out
  | [], ids, h => ⟨ids, [], rfl, h, fun _ _ h => h, .nil⟩
  | (utt, sent) :: text, ids, h => by
    obtain ⟨i1, t, h1, h2, h3, h4⟩ := uttLoop_spec u di lang sent ids [] h
    obtain ⟨i2, out, g1, g2, g3, g4⟩ := googleLoop_spec u di sil lang text i1 h2
    refine ⟨i2, (utt, uttLine sil t) :: out, ?_, g2, fun k v hk => g3 k v (h3 k v hk), ?_⟩
    · simp only [googleLoop, h1, g1, List.nil_append]
    · refine .cons ⟨rfl, t.flatten, ?_, ?_⟩ g4
      · unfold uttLine
        cases sil <;> simp
      · have h4' : List.Forall₂ (Written i1) (squeeze true (sentItems u di sent)) t.flatten := by simpa using h4
        exact h4'.imp fun _ _ => Written.mono g3

/-- The script never fails on sentences. The file of phones that it writes has one line for `sil`, and the names `lang_2`,
`lang_3`, … for the other phones: two groups of letters have the same name if and only if they have the same letters. Every
utterance is written in order: `sil` for the words in brackets (not at the beginning, and not twice in a row), and the names
of the groups of letters of the others. With `--add-sil`, there is one more `sil` at both ends. -/
theorem C146_lines (u : Unicode) (di sil : Bool) (lang : String) (text : List (String × List (List Char))) :
    ∃ ids out, prepareGoogle u di sil lang text = .ok (ids, out) ∧
      (∃ n, ids.map Prod.snd = "sil" :: (List.range n).map fun i => lang ++ "_" ++ Nat.repr (i + 2)) ∧
      (∀ p q n, optGet ids (phoneKey p) = some n → (optGet ids (phoneKey q) = some n ↔ p.Perm q)) ∧
      List.Forall₂ (fun x y => y.1 = x.1 ∧ ∃ l, y.2 = (if sil then ["sil"] ++ l ++ ["sil"] else l) ∧
        List.Forall₂ (Written ids) (squeeze true (sentItems u di x.2)) l) text out := by
  obtain ⟨ids, out, h1, h2, _, h4⟩ := googleLoop_spec u di sil lang text [("sil".toList, "sil")]
    ⟨by decide +kernel, by decide +kernel, 0, rfl, rfl⟩
  refine ⟨ids, out, h1, ?_, ?_, h4⟩
  · obtain ⟨_, _, n, _, hn⟩ := h2
    exact ⟨n, hn⟩
  · intro p q n hp
    rw [← C146_key]
    constructor
    · exact fun hq => h2.inj hp hq
    · intro h; rw [← h]; exact hp

example : prepareGoogle exUni true false "yo" [("u1", ["[x]".toList, "Gbe'".toList, "[x]".toList, "[y]".toList, "e'".toList]),
    ("u2", ["e".toList, "--".toList])] =
    .ok ([("sil".toList, "sil"), ("bg".toList, "yo_2"), ("'e".toList, "yo_3"), ("e".toList, "yo_4")],
      [("u1", ["yo_2", "yo_3", "sil", "yo_3"]), ("u2", ["yo_4"])]) := by decide +kernel

theorem squeeze_chain {α : Type} : ∀ (l : List (Option α)) (prev : Bool),
    (squeeze prev l).IsChain (fun a b => a ≠ none ∨ b ≠ none) ∧ (prev = true → (squeeze prev l).head? ≠ some none)
  | [], prev => by simp [squeeze]
  | none :: l, prev => by
    obtain ⟨h1, h2⟩ := squeeze_chain l true
    cases prev with
    | true => simpa [squeeze] using ⟨h1, h2 rfl⟩
    | false =>
      refine ⟨?_, by simp⟩
      simp only [squeeze, Bool.false_eq_true, if_false]
      cases hl : squeeze true l with
      | nil => simp
      | cons a r =>
        rw [hl] at h1 h2
        refine List.isChain_cons_cons.2 ⟨.inr ?_, h1⟩
        rintro rfl
        exact h2 rfl rfl
  | some a :: l, prev => by
    obtain ⟨h1, _⟩ := squeeze_chain l false
    refine ⟨?_, by simp [squeeze]⟩
    simp only [squeeze]
    cases hl : squeeze false l with
    | nil => simp
    | cons b r =>
      rw [hl] at h1
      exact List.isChain_cons_cons.2 ⟨.inl (by simp), h1⟩

theorem written_chain (ids : List (List Char × String)) : ∀ (l : List (Option (List Char))) (r : List String),
    List.Forall₂ (Written ids) l r → l.IsChain (fun a b => a ≠ none ∨ b ≠ none) →
      r.IsChain (fun a b => ¬ (a = "sil" ∧ b = "sil"))
  | [], _, .nil, _ => by simp
  | [_], _, .cons _ .nil, _ => by simp
  | a :: b :: l, _, .cons (b := x) ha (.cons (b := y) hb hl), hc => by
    obtain ⟨h1, h2⟩ := List.isChain_cons_cons.1 hc
    refine List.isChain_cons_cons.2 ⟨?_, written_chain ids (b :: l) _ (.cons hb hl) h2⟩
    rintro ⟨hx, hy⟩
    rcases h1 with h1 | h1
    · cases a with
      | none => exact h1 rfl
      | some p => exact ha.1 hx
    · cases b with
      | none => exact h1 rfl
      | some p => exact hb.1 hy

/-- Without `--add-sil` no line begins with `sil` and no line has two of them in a row. -/
theorem C146_sil_partial (u : Unicode) (di : Bool) (lang : String) (text : List (String × List (List Char)))
    (ids : List (List Char × String)) (out : List (String × List String))
    (h : prepareGoogle u di false lang text = .ok (ids, out)) :
    ∀ y ∈ out, y.2.head? ≠ some "sil" ∧ y.2.IsChain (fun a b => ¬ (a = "sil" ∧ b = "sil")) := by
  obtain ⟨ids', out', h1, _, _, h4⟩ := C146_lines u di false lang text
  rw [h1] at h
  obtain ⟨rfl, rfl⟩ := Prod.mk.inj (Except.ok.inj h)
  intro y hy
  obtain ⟨x, _, _, l, hl, hw⟩ := forall₂_right_mem h4 y hy
  obtain ⟨utt, line⟩ := y
  obtain ⟨c1, c2⟩ := squeeze_chain (sentItems u di x.2) true
  simp only [Bool.false_eq_true, if_false] at hl ⊢
  subst hl
  refine ⟨?_, written_chain _ _ _ hw c1⟩
  cases hs : squeeze true (sentItems u di x.2) with
  | nil => rw [hs] at hw; cases hw; simp
  | cons a r =>
    rw [hs] at hw c2
    cases hw with
    | cons ha _ =>
      cases a with
      | none => exact absurd rfl (c2 rfl)
      | some p => simpa using ha.1

/-- The violation: with `--add-sil`, a sentence that ends with a word in brackets ends with two `sil`, and a sentence
without letters is two `sil`. -/
theorem C146_sil_fails : prepareGoogle exUni false true "yo" [("u1", ["e".toList, "[x]".toList]), ("u2", [])] =
    .ok ([("sil".toList, "sil"), ("e".toList, "yo_2")], [("u1", ["sil", "yo_2", "sil", "sil"]), ("u2", ["sil", "sil"])]) := by
  decide +kernel

/-! ## C147: prefixes and names of units -/

/-- Every token but the excluded ones gets the prefix; the name of the utterance and the order stay. If no excluded token
begins with the prefix, different transcriptions stay different. -/
theorem C147_prefix_partial (ex : List String) (pre utt : String) (toks toks' : List String) :
    (∃ new, addPrefix ex pre (utt :: toks) = .ok (utt :: new) ∧
      List.Forall₂ (fun t n => (t ∈ ex ∧ n = t) ∨ (t ∉ ex ∧ n = pre ++ t)) toks new) ∧
    ((∀ e ∈ ex, ¬ pre.toList <+: e.toList) →
      addPrefix ex pre (utt :: toks) = addPrefix ex pre (utt :: toks') → toks = toks') := by
  constructor
  · refine ⟨_, rfl, ?_⟩
    induction toks with
    | nil => exact .nil
    | cons t toks ih =>
      refine .cons ?_ ih
      by_cases h : t ∈ ex
      · exact .inl ⟨h, by simp [h]⟩
      · exact .inr ⟨h, by simp [h]⟩
  · intro he h
    simp only [addPrefix, Except.ok.injEq, List.cons.injEq, true_and] at h
    refine List.map_injective_iff.2 ?_ h
    intro t t' ht
    simp only at ht
    by_cases h1 : t ∈ ex
    · by_cases h2 : t' ∈ ex
      · simpa [h1, h2] using ht
      · rw [if_pos h1, if_neg h2] at ht
        exact absurd ⟨t'.toList, by rw [ht, String.toList_append]⟩ (he t h1)
    · by_cases h2 : t' ∈ ex
      · rw [if_neg h1, if_pos h2] at ht
        exact absurd ⟨t.toList, by rw [← ht, String.toList_append]⟩ (he t' h2)
      · rw [if_neg h1, if_neg h2] at ht
        simpa using ht

example : ∀ e ∈ ["sil"], ¬ ("sw_" : String).toList <+: e.toList := by decide +kernel

/-- The violation: an excluded token that begins with the prefix is the same as the rest of it with the prefix. -/
theorem C147_prefix_fails : ∃ (ex : List String) (pre : String) (toks toks' : List String), toks ≠ toks' ∧
    addPrefix ex pre ("utt" :: toks) = addPrefix ex pre ("utt" :: toks') :=
  ⟨["s_a"], "s_", ["s_a"], ["a"], by decide, by decide +kernel⟩

/-- Empty lines of the transcription raise `IndexError`. -/
theorem C147_prefix_empty (ex : List String) (pre : String) : addPrefix ex pre [] = .error .indexError := rfl

example : addPrefix ["sil"] "sw_" ["utt", "sil", "a"] = .ok ["utt", "sil", "sw_a"] := by decide +kernel

/-- The list of units has as many speech units as asked for, with different names, and one non-speech unit `sil` if asked
for. -/
theorem C147_units (nonSpeech : Bool) (n : ℕ) :
    ((langAud nonSpeech n).map Prod.fst).Nodup ∧
    ((langAud nonSpeech n).filter fun u => u.2 = "speech-unit").length = n ∧
    (langAud nonSpeech n).filter (fun u => u.2 ≠ "speech-unit") =
      (if nonSpeech then [("sil", "non-speech-unit")] else []) := by
  have hn : (((List.range n).map fun i => ("au" ++ Nat.repr (i + 1), "speech-unit")).map Prod.fst).Nodup := by
    rw [List.map_map]
    refine List.Nodup.map (fun i j h => ?_) List.nodup_range
    have h' : Nat.repr (i + 1) = Nat.repr (j + 1) := by simpa [Function.comp] using h
    have := Nat.repr_injective h'
    omega
  have hsp : ((List.range n).map fun i => ("au" ++ Nat.repr (i + 1), "speech-unit")).filter
      (fun u => u.2 = "speech-unit") = (List.range n).map fun i => ("au" ++ Nat.repr (i + 1), "speech-unit") := by
    rw [List.filter_eq_self]
    intro u hu
    obtain ⟨i, _, rfl⟩ := List.mem_map.1 hu
    simp
  have hns : ((List.range n).map fun i => ("au" ++ Nat.repr (i + 1), "speech-unit")).filter
      (fun u => u.2 ≠ "speech-unit") = [] := by
    rw [List.filter_eq_nil_iff]
    intro u hu
    obtain ⟨i, _, rfl⟩ := List.mem_map.1 hu
    simp
  unfold langAud
  rw [Int.toNat_natCast]
  cases nonSpeech with
  | false =>
    refine ⟨by simpa using hn, ?_, by simpa using hns⟩
    simp only [Bool.false_eq_true, if_false, List.nil_append]
    rw [hsp]; simp
  | true =>
    simp only [if_true]
    refine ⟨?_, ?_, ?_⟩
    · rw [List.map_append, List.nodup_append]
      refine ⟨by simp, hn, ?_⟩
      intro a ha b hb hab
      simp only [List.map_cons, List.map_nil, List.mem_singleton] at ha
      obtain ⟨u, hu, rfl⟩ := List.mem_map.1 hb
      obtain ⟨i, _, rfl⟩ := List.mem_map.1 hu
      rw [ha] at hab
      have := congrArg String.toList hab
      rw [String.toList_append] at this
      simp at this
    · rw [List.filter_append, hsp, List.filter_cons_of_neg (by decide)]
      simp
    · rw [List.filter_append, hns, List.filter_cons_of_pos (by decide)]
      simp

/-- A negative number of units gives none. -/
theorem C147_units_negative (nonSpeech : Bool) (n : ℤ) (hn : n ≤ 0) :
    langAud nonSpeech n = if nonSpeech then [("sil", "non-speech-unit")] else [] := by
  unfold langAud
  rw [Int.toNat_of_nonpos hn]
  simp

example : langAud true 2 = [("sil", "non-speech-unit"), ("au1", "speech-unit"), ("au2", "speech-unit")] := by
  decide +kernel

end Verif.Props
