import Verif.Lemmas.Recipes

/-!
# C141: the phones of TIMIT
-/

namespace Verif.Props

open Verif Pipeline Recipes

/-! ## The maps that the file means -/

/-- What a line says about the phone `p` of the first set. -/
def at48 (p : String) : List String → Option String
  | a :: b :: _ => if a = p then some b else none
  | _ => none

/-- What a line says about the phone `q` of the second set. -/
def at39 (q : String) : List String → Option String
  | _ :: b :: c :: _ => if b = q then some c else none
  | _ => none

/-- The last line that maps the phone counts. -/
def to48 (lines : List (List String)) (p : String) : Option String := lines.reverse.findSome? (at48 p)

def to39 (lines : List (List String)) (q : String) : Option String := lines.reverse.findSome? (at39 q)

/-- A phone is removed if a line for it has less than three fields. -/
def removed (lines : List (List String)) (p : String) : Bool :=
  lines.any fun l => decide (l.head? = some p) && decide (l.length < 3)

theorem removed_cons (l : List String) (lines : List (List String)) (p : String) :
    removed (l :: lines) p = ((decide (l.head? = some p) && decide (l.length < 3)) || removed lines p) := rfl

theorem to48_cons (l : List String) (lines : List (List String)) (p : String) :
    to48 (l :: lines) p = (to48 lines p).or (at48 p l) := by
  unfold to48
  rw [List.reverse_cons, List.findSome?_append]
  congr 1
  simp only [List.findSome?]
  split <;> simp_all

theorem to39_cons (l : List String) (lines : List (List String)) (p : String) :
    to39 (l :: lines) p = (to39 lines p).or (at39 p l) := by
  unfold to39
  rw [List.reverse_cons, List.findSome?_append]
  congr 1
  simp only [List.findSome?]
  split <;> simp_all

theorem loadMap_spec : ∀ (lines : List (List String)) (m : PhoneMap), [] ∉ lines →
    ∃ m', loadMap lines m = .ok m' ∧ (∀ p, optGet m'.m60 p = (to48 lines p).or (optGet m.m60 p)) ∧
      (∀ q, optGet m'.m48 q = (to39 lines q).or (optGet m.m48 q)) ∧
      ∀ p, p ∈ m'.toRemove ↔ p ∈ m.toRemove ∨ removed lines p = true
  | [], m, _ => ⟨m, rfl, fun _ => rfl, fun _ => rfl, by simp [removed]⟩
  | l :: lines, m, h => by
    have hl : l ≠ [] := fun h' => h (by simp [h'])
    have hr : [] ∉ lines := fun h' => h (by simp [h'])
    have step : ∃ m1, mapLine m l = .ok m1 ∧ (∀ p, optGet m1.m60 p = (at48 p l).or (optGet m.m60 p)) ∧
        (∀ q, optGet m1.m48 q = (at39 q l).or (optGet m.m48 q)) ∧
        ∀ p, p ∈ m1.toRemove ↔ p ∈ m.toRemove ∨ (l.head? = some p ∧ l.length < 3) := by
      match l, hl with
      | [], h => exact absurd rfl h
      | [a], _ =>
        refine ⟨_, rfl, fun _ => rfl, fun _ => rfl, fun p => ?_⟩
        simp [eq_comm]
      | [a, b], _ =>
        refine ⟨_, rfl, fun p => ?_, fun _ => rfl, fun p => ?_⟩
        · rw [optGet_set]
          by_cases hp : p = a
          · simp [at48, hp]
          · simp [at48, hp, Ne.symm hp]
        · simp [eq_comm]
      | a :: b :: c :: t, _ =>
        refine ⟨_, rfl, fun p => ?_, fun q => ?_, fun p => ?_⟩
        · rw [optGet_set]
          by_cases hp : p = a
          · simp [at48, hp]
          · simp [at48, hp, Ne.symm hp]
        · rw [optGet_set]
          by_cases hq : q = b
          · simp [at39, hq]
          · simp [at39, hq, Ne.symm hq]
        · simp
    obtain ⟨m1, h1, h2, h3, h4⟩ := step
    obtain ⟨m2, h5, h6, h7, h8⟩ := loadMap_spec lines m1 hr
    refine ⟨m2, by simp only [loadMap, h1, h5], fun p => ?_, fun q => ?_, fun p => ?_⟩
    · rw [h6, h2, to48_cons, Option.or_assoc]
    · rw [h7, h3, to39_cons, Option.or_assoc]
    · rw [h8, h4, removed_cons]
      simp [or_assoc]

theorem to39_of_to48 (lines : List (List String)) (p q : String) (h : to48 lines p = some q)
    (hr : removed lines p = false) : ∃ r, to39 lines q = some r := by
  unfold to48 at h
  obtain ⟨l, hl, hlq⟩ := List.exists_of_findSome?_eq_some h
  rw [List.mem_reverse] at hl
  apply Option.isSome_iff_exists.1
  unfold to39
  rw [List.findSome?_isSome_iff]
  refine ⟨l, List.mem_reverse.2 hl, ?_⟩
  unfold removed at hr
  rw [List.any_eq_false] at hr
  have hr' := hr l hl
  match l, hlq, hr' with
  | a :: b :: t, hlq, hr' =>
    simp only [at48] at hlq
    split at hlq
    · rename_i hap
      cases hlq
      match t, hr' with
      | [], hr' => simp [hap] at hr'
      | c :: t, _ => simp [at39]
    · cases hlq

/-- Both passes over a transcription: the first replaces every phone by its class of the second set and drops the phones
without a full line; the second accepts whatever the first writes and replaces by the classes of the third set. Order and
utterance are kept. -/
theorem C141_norm (lines : List (List String)) (hb : [] ∉ lines) :
    ∃ m, loadMap lines {} = .ok m ∧ ∀ (utt : String) (toks : List String),
      (∀ p ∈ toks, removed lines p = false → (to48 lines p).isSome) →
      ∃ qs, normLine m true (utt :: toks) = .ok (utt :: qs) ∧
        List.Forall₂ (fun p q => to48 lines p = some q) (toks.filter fun p => !removed lines p) qs ∧
        ∃ rs, normLine m false (utt :: qs) = .ok (utt :: rs) ∧
          List.Forall₂ (fun q r => to39 lines q = some r) (qs.filter fun q => !removed lines q) rs := by
  obtain ⟨m, h1, h2, h3, h4⟩ := loadMap_spec lines {} hb
  refine ⟨m, h1, ?_⟩
  intro utt toks ht
  have hfil : ∀ l : List String, l.filter (fun p => p ∉ m.toRemove) = l.filter fun p => !removed lines p := by
    intro l
    apply List.filter_congr
    intro p _
    have := h4 p
    simp only [List.not_mem_nil, false_or] at this
    by_cases hp : removed lines p = true
    · simp [this, hp]
    · simp [this, hp]
  have e60 : ∀ p, optGet m.m60 p = to48 lines p := fun p => by rw [h2]; simp [optGet, dictGet, Except.toOption]
  have e48 : ∀ p, optGet m.m48 p = to39 lines p := fun p => by rw [h3]; simp [optGet, dictGet, Except.toOption]
  obtain ⟨qs, hq1, hq2⟩ := listComp_forall (f := dictGet m.m60) (l := toks.filter fun p => !removed lines p) (by
    intro p hp
    rw [List.mem_filter] at hp
    obtain ⟨v, hv⟩ := Option.isSome_iff_exists.1 (ht p hp.1 (by simpa using hp.2))
    exact ⟨v, (optGet_some _ _ _).1 (by rw [e60]; exact hv)⟩)
  have hq3 : List.Forall₂ (fun p q => to48 lines p = some q) (toks.filter fun p => !removed lines p) qs :=
    hq2.imp fun p q h => by rw [← e60]; exact (optGet_some _ _ _).2 h
  have hqs : ∀ q ∈ qs, ∃ r, to39 lines q = some r := by
    intro q hq
    obtain ⟨i, hi, rfl⟩ := List.getElem_of_mem hq
    have hlen := hq3.length_eq
    have hp := List.getElem_mem (l := toks.filter fun p => !removed lines p) (n := i) (by omega)
    have := (List.forall₂_iff_get.1 hq3).2 i (by omega) hi
    rw [List.mem_filter] at hp
    exact to39_of_to48 lines _ _ this (by simpa using hp.2)
  obtain ⟨rs, hr1, hr2⟩ := listComp_forall (f := dictGet m.m48) (l := qs.filter fun q => !removed lines q) (by
    intro q hq
    obtain ⟨r, hr⟩ := hqs q (List.mem_filter.1 hq).1
    exact ⟨r, (optGet_some _ _ _).1 (by rw [e48]; exact hr)⟩)
  refine ⟨qs, ?_, hq3, rs, ?_, hr2.imp fun q r h => by rw [← e48]; exact (optGet_some _ _ _).2 h⟩
  · simp only [normLine, PhoneMap.select, if_true, hfil, hq1]
  · simp only [normLine, PhoneMap.select, Bool.false_eq_true, if_false, hfil, hr1]

/-- Part of the map of TIMIT. -/
def exMap : List (List String) :=
  [["ax-h", "ax", "ah"], ["bcl", "vcl", "sil"], ["h#", "sil", "sil"], ["q"], ["zh", "zh", "sh"]]

example : [] ∉ exMap := by decide +kernel

example : ∀ p ∈ ["h#", "q", "zh"], removed exMap p = false → (to48 exMap p).isSome := by decide +kernel

example : (loadMap exMap {}).toOption.map (fun m => (normLine m true ["utt", "h#", "q", "zh", "ax-h"]).toOption) =
    some (some ["utt", "sil", "zh", "ax"]) := by decide +kernel

/-- Phones that the map does not know, empty lines of the transcription and of the map raise errors. -/
theorem C141_norm_errors (lines lines' : List (List String)) (hb : [] ∉ lines) :
    loadMap (lines ++ [] :: lines') {} = .error .indexError ∧
    ∃ m, loadMap lines {} = .ok m ∧ normLine m true [] = .error .indexError ∧
      ∀ utt toks p, p ∈ toks → removed lines p = false →
        (to48 lines p = none → normLine m true (utt :: toks) = .error .keyError) ∧
        (to39 lines p = none → normLine m false (utt :: toks) = .error .keyError) := by
  refine ⟨?_, ?_⟩
  · have : ∀ (ls : List (List String)) (m : PhoneMap), [] ∉ ls →
        loadMap (ls ++ [] :: lines') m = .error .indexError := by
      intro ls
      induction ls with
      | nil => intro m _; rfl
      | cons l ls ih =>
        intro m h
        obtain ⟨m', hm, _⟩ := loadMap_spec [l] m (by simp only [List.mem_cons, List.not_mem_nil, or_false]
                                                     exact fun h' => h (by simp [h']))
        simp only [loadMap] at hm
        rw [List.cons_append]
        simp only [loadMap]
        cases hl : mapLine m l with
        | error e => rw [hl] at hm; cases hm
        | ok m1 => exact ih m1 fun h' => h (by simp [h'])
    exact this lines {} hb
  · obtain ⟨m, h1, h2, h3, h4⟩ := loadMap_spec lines {} hb
    refine ⟨m, h1, rfl, ?_⟩
    intro utt toks p hp hr
    have hmem : p ∈ toks.filter (fun p => p ∉ m.toRemove) := by
      rw [List.mem_filter]
      refine ⟨hp, ?_⟩
      have := h4 p
      simp [hr] at this
      simp [this]
    have key : ∀ d : List (String × String), optGet d p = none →
        Eval.listComp (dictGet d) (toks.filter (fun p => p ∉ m.toRemove)) = .error .keyError := by
      intro d hd
      apply Eval.listComp_error
      · intro x _ e he
        exact dictGet_err d x e he
      · exact ⟨p, hmem, .keyError, (optGet_none d p).1 hd⟩
    constructor
    · intro h
      have := key m.m60 (by rw [h2, h]; simp [optGet, dictGet, Except.toOption])
      simp only [normLine, PhoneMap.select, if_true, this]
    · intro h
      have := key m.m48 (by rw [h3, h]; simp [optGet, dictGet, Except.toOption])
      simp only [normLine, PhoneMap.select, Bool.false_eq_true, if_false, this]

example : (loadMap exMap {}).toOption.map (fun m => (normLine m true ["utt", "xx"]).toOption) = some none := by
  decide +kernel

/-- The violation: the second pass also drops classes that have the name of a phone without a class. -/
theorem C141_removed_twice : ∃ (lines : List (List String)) (m : PhoneMap), loadMap lines {} = .ok m ∧
    to48 lines "x" = some "q" ∧ to39 lines "q" = some "k" ∧ removed lines "x" = false ∧
    normLine m true ["utt", "x"] = .ok ["utt", "q"] ∧ normLine m false ["utt", "q"] = .ok ["utt"] :=
  ⟨[["q"], ["x", "q", "k"]], ⟨[("x", "q")], [("q", "k")], ["q"]⟩, by rfl, by decide +kernel, by decide +kernel,
    by decide +kernel, by decide +kernel, by decide +kernel⟩

/-! ## The list of phones -/

theorem langLoop_spec : ∀ (lines : List (List String)) (d : List (String × String)),
    (∀ l ∈ lines, l = ["q"] ∨ (l.head? ≠ some "q" ∧ 3 ≤ l.length)) → (d.map Prod.fst).Nodup →
    ∃ d', langLoop lines d = .ok d' ∧ (d'.map Prod.fst).Nodup ∧
      ∀ q, optGet d' q = if q = "sil" then optGet d q else (to39 lines q).or (optGet d q)
  | [], d, _, hd => ⟨d, rfl, hd, fun q => by simp [to39]⟩
  | l :: lines, d, h, hd => by
    have hrest : ∀ l ∈ lines, l = ["q"] ∨ (l.head? ≠ some "q" ∧ 3 ≤ l.length) := fun l' hl' => h l' (by simp [hl'])
    rcases h l (by simp) with hq | ⟨hq, hlen⟩
    · obtain ⟨d', h1, h2, h3⟩ := langLoop_spec lines d hrest hd
      refine ⟨d', by rw [hq]; simpa [langLoop] using h1, h2, fun q => ?_⟩
      rw [h3, to39_cons, hq]
      simp [at39]
    · match l, hq, hlen with
      | a :: b :: c :: t, hq, _ =>
        have ha : a ≠ "q" := fun h => hq (by simp [h])
        by_cases hb : b = "sil"
        · obtain ⟨d', h1, h2, h3⟩ := langLoop_spec lines d hrest hd
          refine ⟨d', by simpa [langLoop, ha, hb] using h1, h2, fun q => ?_⟩
          rw [h3, to39_cons]
          by_cases hqs : q = "sil"
          · simp [hqs]
          · simp [hqs, at39, hb, Ne.symm hqs]
        · obtain ⟨d', h1, h2, h3⟩ := langLoop_spec lines (dictSet d b c) hrest (dictSet_nodup d b c hd)
          refine ⟨d', by simpa [langLoop, ha, hb] using h1, h2, fun q => ?_⟩
          rw [h3, to39_cons, optGet_set, Option.or_assoc]
          by_cases hqs : q = "sil"
          · simp [hqs, Ne.symm hb]
          · by_cases hqb : q = b
            · subst hqb; simp [hqs, at39]
            · simp [hqs, at39, hqb, Ne.symm hqb]

theorem forall₂_fst {α β : Type} {l : List α} {m : List (α × β)} (h : List.Forall₂ (fun k p => p.1 = k) l m) :
    m.map Prod.fst = l := by
  induction h with
  | nil => rfl
  | cons h _ ih => rw [List.map_cons, ih, h]

/-- Maps in which every phone but `q` has both classes, and some class other than `sil` goes to `sil`. -/
def GoodMap (lines : List (List String)) : Prop :=
  (∀ l ∈ lines, l = ["q"] ∨ (l.head? ≠ some "q" ∧ 3 ≤ l.length)) ∧ ∃ q, q ≠ "sil" ∧ to39 lines q = some "sil"

/-- The files describe the map: the phones are `sil` and the classes of the second set, each once and in order, numbered
from 0; all files list the same phones; the map to the third set is that of the file; the phones of the third set are its
values, each once, `sil` first, numbered from 0. -/
theorem C141_lang (lines : List (List String)) (hg : GoodMap lines) :
    ∃ f ks k39, langPrep lines = .ok f ∧ ks.Pairwise (· < ·) ∧ "sil" ∉ ks ∧
      (∀ q, q ∈ ks ↔ q ≠ "sil" ∧ (to39 lines q).isSome) ∧
      f.phones = ("sil" :: ks).zipIdx ∧ f.units.map Prod.fst = "sil" :: ks ∧ f.map48.map Prod.fst = "sil" :: ks ∧
      (∀ q r, q ≠ "sil" → ((q, r) ∈ f.map48 ↔ to39 lines q = some r)) ∧ ("sil", "sil") ∈ f.map48 ∧
      f.phones39 = ("sil" :: k39).zipIdx ∧ k39.Pairwise (· < ·) ∧ "sil" ∉ k39 ∧
      ∀ r, r ∈ "sil" :: k39 ↔ ∃ q, q ≠ "sil" ∧ to39 lines q = some r := by
  obtain ⟨hl, q0, hq0, hq0s⟩ := hg
  obtain ⟨d, h1, h2, h3⟩ := langLoop_spec lines [] hl (by simp)
  have hd : ∀ q, optGet d q = if q = "sil" then none else to39 lines q := by
    intro q
    rw [h3]
    split <;> simp [optGet, dictGet, Except.toOption]
  have hmemd : ∀ q r, (q, r) ∈ d ↔ q ≠ "sil" ∧ to39 lines q = some r := by
    intro q r
    have : (q, r) ∈ d ↔ optGet d q = some r :=
      ⟨fun h => (optGet_some _ _ _).2 (dictGet_of_mem d q r h2 h), fun h => dictGet_mem d q r ((optGet_some _ _ _).1 h)⟩
    rw [this, hd]
    by_cases hq : q = "sil"
    · simp [hq]
    · simp [hq]
  have hval : ∀ r, r ∈ (d.map Prod.snd).dedup.insertionSort (· ≤ ·) ↔ ∃ q, q ≠ "sil" ∧ to39 lines q = some r := by
    intro r
    rw [List.mem_insertionSort, List.mem_dedup, List.mem_map]
    constructor
    · rintro ⟨⟨q, r'⟩, hm, rfl⟩
      exact ⟨q, (hmemd q r').1 hm⟩
    · rintro ⟨q, hq⟩
      exact ⟨(q, r), (hmemd q r).2 hq, rfl⟩
  have hsil : "sil" ∈ (d.map Prod.snd).dedup.insertionSort (· ≤ ·) := (hval "sil").2 ⟨q0, hq0, hq0s⟩
  have strict : ∀ l : List String, l.Nodup → (l.insertionSort (· ≤ ·)).Pairwise (· < ·) := by
    intro l hn
    have a1 := List.pairwise_insertionSort (· ≤ ·) l
    have a2 : (l.insertionSort (· ≤ ·)).Nodup := (List.perm_insertionSort (· ≤ ·) l).nodup_iff.2 hn
    exact (a1.and a2).imp fun h => lt_of_le_of_ne h.1 h.2
  set p39 := (d.map Prod.snd).dedup.insertionSort (· ≤ ·) with hp39
  set ks := (d.map Prod.fst).insertionSort (· ≤ ·) with hks
  have hp39n : p39.Nodup := (List.perm_insertionSort (· ≤ ·) _).nodup_iff.2 (List.nodup_dedup _)
  have hks_mem : ∀ q, q ∈ ks ↔ q ≠ "sil" ∧ (to39 lines q).isSome := by
    intro q
    rw [hks, List.mem_insertionSort, ← optGet_isSome, hd]
    by_cases hq : q = "sil"
    · simp [hq]
    · simp [hq]
  obtain ⟨mm, hm1, hm2⟩ := listComp_forall (f := fun k => (dictGet d k).map fun v => (k, v)) (l := ks) (by
    intro k hk
    obtain ⟨hk1, hk2⟩ := (hks_mem k).1 hk
    obtain ⟨v, hv⟩ := Option.isSome_iff_exists.1 hk2
    have : dictGet d k = .ok v := (optGet_some _ _ _).1 (by rw [hd, if_neg hk1, hv])
    exact ⟨(k, v), by rw [this]; rfl⟩)
  have hmm : ∀ k p, (fun k => (dictGet d k).map fun v => (k, v)) k = .ok p → p.1 = k ∧ dictGet d k = .ok p.2 := by
    intro k p h
    simp only at h
    cases hgk : dictGet d k with
    | error e => rw [hgk] at h; cases h
    | ok v => rw [hgk] at h; simp only [Except.map, Except.ok.injEq] at h; subst h; exact ⟨rfl, rfl⟩
  have hkeys : mm.map Prod.fst = ks := by
    exact forall₂_fst (hm2.imp fun k p h => (hmm k p h).1)
  have hmmd : ∀ q r, (q, r) ∈ mm ↔ (q, r) ∈ d := by
    intro q r
    constructor
    · intro h
      obtain ⟨i, hi, hie⟩ := List.getElem_of_mem h
      have hlen := hm2.length_eq
      have := hmm _ _ ((List.forall₂_iff_get.1 hm2).2 i (by omega) hi)
      simp only [List.get_eq_getElem, hie] at this
      rw [← this.1] at this
      exact dictGet_mem d q r this.2
    · intro h
      have hq : q ∈ mm.map Prod.fst := by
        rw [hkeys, hks, List.mem_insertionSort]
        exact List.mem_map_of_mem h
      obtain ⟨⟨q', r'⟩, hqr, hqq⟩ := List.mem_map.1 hq
      simp only at hqq
      subst hqq
      obtain ⟨i, hi, hie⟩ := List.getElem_of_mem hqr
      have hlen := hm2.length_eq
      have := hmm _ _ ((List.forall₂_iff_get.1 hm2).2 i (by omega) hi)
      simp only [List.get_eq_getElem, hie] at this
      rw [← this.1] at this
      have e1 := dictGet_of_mem d q' r h2 h
      rw [this.2] at e1
      cases e1
      exact hqr
  have hprep : langPrep lines = .ok ⟨("sil", 0) :: ks.zipIdx 1,
      ("sil", "non-speech-unit") :: ks.map (fun k => (k, if k = "epi" then "non-speech-unit" else "speech-unit")),
      ("sil", "sil") :: mm, ("sil" :: p39.erase "sil").zipIdx⟩ := by
    unfold langPrep
    rw [h1]
    have hp : phone39 d = .ok ("sil" :: p39.erase "sil") := by
      unfold phone39
      simp only
      rw [← hp39, if_pos hsil]
    simp only [hp]
    unfold langFiles
    simp only
    rw [← hks, hm1]
  refine ⟨_, ks, p39.erase "sil", hprep, strict _ h2, ?_, hks_mem, ?_, ?_, ?_, ?_, ?_, rfl, ?_, ?_, ?_⟩
  · intro h
    exact ((hks_mem "sil").1 h).1 rfl
  · simp [List.zipIdx_cons]
  · simp [Function.comp_def]
  · simp [hkeys]
  · intro q r hq
    simp only [List.mem_cons, Prod.mk.injEq, hq, false_and, false_or]
    rw [hmmd, hmemd]
    simp [hq]
  · simp
  · exact (strict _ (List.nodup_dedup _)).sublist List.erase_sublist
  · exact fun h => (List.Nodup.not_mem_erase hp39n) h
  · intro r
    rw [← hval]
    constructor
    · intro h
      rcases List.mem_cons.1 h with rfl | h
      · exact hsil
      · exact List.mem_of_mem_erase h
    · intro h
      by_cases hr : r = "sil"
      · simp [hr]
      · exact List.mem_cons.2 (.inr ((List.mem_erase_of_ne hr).2 h))

example : GoodMap exMap := ⟨by decide +kernel, "vcl", by decide, by decide +kernel⟩

/-- Every phone that the first pass writes is in the list of phones, and has a line in the map of the third set. -/
theorem C141_listed (lines : List (List String)) (hg : GoodMap lines) (p q : String) (hp : removed lines p = false)
    (h : to48 lines p = some q) :
    ∃ f, langPrep lines = .ok f ∧ q ∈ f.phones.map Prod.fst ∧ q ∈ f.units.map Prod.fst ∧
      ∃ r, (q, r) ∈ f.map48 ∧ (q ≠ "sil" → r ∈ f.phones39.map Prod.fst) := by
  obtain ⟨f, ks, k39, h1, _, _, h4, h5, h6, _, h8, h9, h10, _, _, h13⟩ := C141_lang lines hg
  obtain ⟨r, hr⟩ := to39_of_to48 lines p q h hp
  have hq : q ∈ "sil" :: ks := by
    by_cases hqs : q = "sil"
    · simp [hqs]
    · exact List.mem_cons.2 (.inr ((h4 q).2 ⟨hqs, by rw [hr]; rfl⟩))
  refine ⟨f, h1, ?_, by rw [h6]; exact hq, ?_⟩
  · rw [h5, List.zipIdx_map_fst]
    exact hq
  · by_cases hqs : q = "sil"
    · exact ⟨"sil", by rw [hqs]; exact h9, fun h => absurd hqs h⟩
    · refine ⟨r, (h8 q r hqs).2 hr, fun _ => ?_⟩
      rw [h10, List.zipIdx_map_fst, h13]
      exact ⟨q, hqs, hr⟩

example : removed exMap "bcl" = false ∧ to48 exMap "bcl" = some "vcl" := by decide +kernel

/-- Maps that are refused: no class but `sil` goes to `sil`; a line for another phone than `q` with less than three
fields, which the other script accepts as a phone to remove. -/
theorem C141_lang_errors :
    (∀ lines : List (List String), (∀ l ∈ lines, l = ["q"] ∨ (l.head? ≠ some "q" ∧ 3 ≤ l.length)) →
      (∀ q, q ≠ "sil" → to39 lines q ≠ some "sil") → langPrep lines = .error .valueError) ∧
    (∀ lines lines' : List (List String), (∀ l ∈ lines, l = ["q"] ∨ (l.head? ≠ some "q" ∧ 3 ≤ l.length)) →
      ∀ l, l.head? ≠ some "q" → l.length < 3 → l[1]? ≠ some "sil" →
        langPrep (lines ++ l :: lines') = .error .indexError) := by
  constructor
  · intro lines hl hs
    obtain ⟨d, h1, h2, h3⟩ := langLoop_spec lines [] hl (by simp)
    have : phone39 d = .error .valueError := by
      unfold phone39
      simp only
      rw [if_neg]
      rw [List.mem_insertionSort, List.mem_dedup, List.mem_map]
      rintro ⟨⟨q, r⟩, hm, hr⟩
      simp only at hr
      subst hr
      have hg := (optGet_some _ _ _).2 (dictGet_of_mem d q "sil" h2 hm)
      rw [h3] at hg
      split at hg
      · simp [optGet, dictGet, Except.toOption] at hg
      · rename_i hq
        simp [optGet, dictGet, Except.toOption] at hg
        exact hs q hq hg
    unfold langPrep
    simp only [h1, this]
  · intro lines lines' hl l hlq hlen hls
    have : ∀ (ls : List (List String)) (d : List (String × String)),
        (∀ l ∈ ls, l = ["q"] ∨ (l.head? ≠ some "q" ∧ 3 ≤ l.length)) →
        langLoop (ls ++ l :: lines') d = .error .indexError := by
      intro ls
      induction ls with
      | nil =>
        intro d _
        match l, hlq, hlen, hls with
        | [], _, _, _ => rfl
        | [a], hlq, _, _ =>
          have ha : a ≠ "q" := fun h => hlq (by simp [h])
          simp [langLoop, ha]
        | [a, b], hlq, _, hls =>
          have ha : a ≠ "q" := fun h => hlq (by simp [h])
          have hb : b ≠ "sil" := fun h => hls (by simp [h])
          simp [langLoop, ha, hb]
      | cons x ls ih =>
        intro d h
        have ih' := fun d => ih d fun l' hl' => h l' (by simp [hl'])
        rcases h x (by simp) with hx | ⟨hx, hx3⟩
        · rw [hx]; simpa [langLoop] using ih' d
        · match x, hx, hx3 with
          | a :: b :: c :: t, hx, _ =>
            have ha : a ≠ "q" := fun h => hx (by simp [h])
            by_cases hb : b = "sil"
            · simpa [langLoop, ha, hb] using ih' d
            · simpa [langLoop, ha, hb] using ih' (dictSet d b c)
    unfold langPrep
    rw [this lines [] hl]

example : (langPrep [["zh", "zh", "sh"]]).toOption.isNone ∧ (langPrep [["zh", "zh"]]).toOption.isNone := by
  decide +kernel

end Verif.Props
