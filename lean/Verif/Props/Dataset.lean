import Verif.Lemmas.Dataset

/-!
# C132, C133: archives and data sets
-/

namespace Verif.Props

open Verif Dataset Pipeline

variable {F : Type}

/-- An identifier the tools keep: not empty, no dot in front, no `.npy` inside. -/
def PlainId (u : Name) : Prop := u ≠ [] ∧ u.head? ≠ some '.' ∧ ¬ npy <:+: u

theorem plain_matches (u : Name) (h : PlainId u) : matches_ ['n', 'p', 'y'] (u ++ npy) = true := by
  obtain ⟨h1, h2, -⟩ := h
  cases u with
  | nil => exact absurd rfl h1
  | cons c u =>
    have h3 : ['n', 'p', 'y'] <:+ (c :: u) ++ npy := ⟨(c :: u) ++ ['.'], by simp [npy]⟩
    unfold matches_
    rw [Bool.and_eq_true]
    refine ⟨decide_eq_true h3, ?_⟩
    simpa using h2

theorem plain_remove (u : Name) (h : PlainId u) : remove ('.' :: ['n', 'p', 'y']) (u ++ npy) = u :=
  remove_suffix ['n', 'p', 'y'] u (by decide) h.2.2

/-- Whatever the order of the files, the archive has one entry for each utterance, with its identifier and its
features. -/
theorem archive_perm (utts dir : List (Name × F)) (hn : (utts.map Prod.fst).Nodup) (hp : ∀ p ∈ utts, PlainId p.1)
    (hdir : List.Perm dir (extractDir utts [])) : List.Perm (archive ['n', 'p', 'y'] dir) utts := by
  rw [extractDir_new utts [] (fun p h hs => (hp p h).2.2 hs.isInfix) hn (by simp), List.nil_append] at hdir
  have h1 := (hdir.filter fun f => matches_ ['n', 'p', 'y'] f.1).map
    fun f : Name × F => (remove ('.' :: ['n', 'p', 'y']) f.1, f.2)
  refine h1.trans ?_
  rw [List.filter_eq_self.2, List.map_map]
  · have : utts.map ((fun f : Name × F => (remove ('.' :: ['n', 'p', 'y']) f.1, f.2)) ∘
        fun p => (p.1 ++ npy, p.2)) = utts.map id := by
      refine List.map_congr_left fun p h => ?_
      show (remove ('.' :: ['n', 'p', 'y']) (p.1 ++ npy), p.2) = p
      rw [plain_remove p.1 (hp p h)]
    rw [this, List.map_id]
  · intro f hf
    obtain ⟨p, h, rfl⟩ := List.mem_map.1 hf
    exact plain_matches p.1 (hp p h)

theorem files_plain (zip : List (Name × F)) (hp : ∀ p ∈ zip, PlainId p.1) : files zip = zip.map Prod.fst := by
  unfold files
  refine List.map_congr_left fun p h => ?_
  rw [if_neg fun hs => (hp p h).2.2 hs.isInfix]

/-! ## C132: from the extraction to the data set -/

/-- Round trip: the features extracted for an utterance are those the data set gives for it, whatever the order in
which the files are archived; other identifiers are refused. -/
theorem C132_round_trip_partial (utts dir : List (Name × F)) (hn : (utts.map Prod.fst).Nodup)
    (hp : ∀ p ∈ utts, PlainId p.1) (hdir : List.Perm dir (extractDir utts [])) :
    (∀ u f, (u, f) ∈ utts → getitem (archive ['n', 'p', 'y'] dir) u = .ok (u, f)) ∧
    (∀ u, u ∉ utts.map Prod.fst → getitem (archive ['n', 'p', 'y'] dir) u = .error .keyError) ∧
    Dataset.length (archive ['n', 'p', 'y'] dir) = utts.length := by
  have hperm := archive_perm utts dir hn hp hdir
  have hkeys : ((archive ['n', 'p', 'y'] dir).map Prod.fst).Nodup := (hperm.map Prod.fst).nodup_iff.2 hn
  refine ⟨fun u f h => ?_, fun u h => ?_, ?_⟩
  · unfold getitem load
    rw [entry_of_mem _ hkeys u f (hperm.mem_iff.2 h)]
  · unfold getitem load
    rw [entry_none _ u fun h2 => h ((hperm.map Prod.fst).mem_iff.1 h2)]
    dsimp only
    rw [entry_none _ (u ++ npy)]
    intro h2
    obtain ⟨p, h3, h4⟩ := List.mem_map.1 ((hperm.map Prod.fst).mem_iff.1 h2)
    exact (hp p h3).2.2 (by rw [h4]; exact (List.suffix_append u npy).isInfix)
  · unfold Dataset.length files
    rw [List.length_map, hperm.length_eq]

/-- The hypothesis on identifiers cannot be dropped: the features of `a` are overwritten by those of `a.npy`, -/
theorem C132_overwritten :
    getitem (archive ['n', 'p', 'y'] (extractDir [(['a'], 1), (['a'] ++ npy, 2)] [])) ['a'] = .ok (['a'], 2) ∧
    Dataset.length (archive ['n', 'p', 'y'] (extractDir [(['a'], 1), (['a'] ++ npy, 2)] [])) = 1 := by
  decide +kernel

/-- those of an identifier with `.npy` inside are found under another name, possibly that of another utterance, -/
theorem C132_renamed :
    getitem (archive ['n', 'p', 'y'] (extractDir [(['a', 'b'], 1), (['a'] ++ npy ++ ['b'], 2)] [])) ['a', 'b'] =
      .ok (['a', 'b'], 2) ∧
    getitem (archive ['n', 'p', 'y'] (extractDir [(['a', 'b'], 1), (['a'] ++ npy ++ ['b'], 2)] [])) (['a'] ++ npy ++ ['b']) =
      .error .keyError ∧
    files (archive ['n', 'p', 'y'] (extractDir [(['a', 'b'], 1), (['a'] ++ npy ++ ['b'], 2)] [])) =
      [['a', 'b'], ['a', 'b']] := by
  decide +kernel

/-- and an identifier that begins with a dot is silently left out, whatever the other utterances. -/
theorem C132_hidden (u : Name) (hd : u.head? = some '.') (dir : List (Name × F)) (f : F) :
    archive ['n', 'p', 'y'] ((u ++ npy, f) :: dir) = archive ['n', 'p', 'y'] dir := by
  unfold archive
  rw [List.filter_cons_of_neg]
  intro h
  unfold matches_ at h
  rw [Bool.and_eq_true] at h
  cases u with
  | nil => simp at hd
  | cons c u =>
    simp only [List.head?_cons, Option.some.injEq] at hd
    subst hd
    simp at h

/-- Two utterances, archived in the other order. -/
example : getitem (archive ['n', 'p', 'y'] [(['b', '1', '.', 'n', 'p', 'y'], 5), (['a', '.', 'n', 'p', 'y'], 3)]) ['a'] =
    .ok (['a'], 3) :=
  (C132_round_trip_partial [(['a'], 3), (['b', '1'], 5)] _ (by decide) (by
    intro p hp
    simp only [List.mem_cons, List.not_mem_nil, or_false] at hp
    rcases hp with rfl | rfl <;> (unfold PlainId npy; decide)) (by decide +kernel)).1 ['a'] 3 (by simp)

/-! ## C133: iteration over a data set -/

/-- The iteration, from what `files` and `load` give. -/
theorem iteration_of (zip utts : List (Name × F)) (hf : List.Perm (files zip) (utts.map Prod.fst))
    (hn : (utts.map Prod.fst).Nodup) (hl : ∀ p ∈ utts, load zip p.1 = .ok p.2)
    (shuffle : Option (List Name → List Name)) (hs : ∀ f, shuffle = some f → ∀ l, List.Perm (f l) l) :
    ∃ l, loop (uttsid zip shuffle) zip (utts.length + 1) 0 = .ok (some l) ∧ List.Perm l utts ∧
      l.map Prod.fst = uttsid zip shuffle ∧ (shuffle = none → (l.map Prod.fst).Pairwise (· < ·)) := by
  have hids : List.Perm (uttsid zip shuffle) (utts.map Prod.fst) := by
    unfold uttsid
    cases shuffle with
    | none => exact (List.perm_insertionSort _ _).trans hf
    | some f => exact ((hs f rfl _).trans (List.perm_insertionSort _ _)).trans hf
  have hget : ∀ u ∈ uttsid zip shuffle, ∃ f, (u, f) ∈ utts := by
    intro u hu
    obtain ⟨p, h, rfl⟩ := List.mem_map.1 (hids.mem_iff.1 hu)
    exact ⟨p.2, h⟩
  have hnod : (uttsid zip shuffle).Nodup := hids.nodup_iff.2 hn
  have hlen : (uttsid zip shuffle).length = utts.length := by rw [hids.length_eq, List.length_map]
  have hsorted : shuffle = none → (uttsid zip shuffle).Pairwise (· < ·) := by
    intro h
    have h1 : (uttsid zip shuffle).Pairwise (· ≤ ·) := by
      rw [h]
      exact List.pairwise_insertionSort _ _
    exact (h1.and hnod).imp fun h => lt_of_le_of_ne h.1 h.2
  cases utts with
  | nil =>
    have h0 : uttsid zip shuffle = [] := List.length_eq_zero_iff.1 hlen
    refine ⟨[], ?_, List.Perm.refl _, ?_, fun _ => List.Pairwise.nil⟩
    · rw [h0]
      rfl
    · rw [h0]
      rfl
  | cons p0 rest =>
    classical
    set utts := p0 :: rest with hutts
    let g : Name → F := fun u => if h : ∃ f, (u, f) ∈ utts then h.choose else p0.2
    have hg : ∀ u ∈ uttsid zip shuffle, (u, g u) ∈ utts := by
      intro u hu
      have h := hget u hu
      show (u, if h : ∃ f, (u, f) ∈ utts then h.choose else p0.2) ∈ utts
      rw [dif_pos h]
      exact h.choose_spec
    have hloop := loop_all (uttsid zip shuffle) zip g (fun u hu => hl (u, g u) (hg u hu)) (utts.length + 1) 0
      (by rw [hlen]; omega) (Nat.zero_le _)
    rw [List.drop_zero] at hloop
    have hfst : ((uttsid zip shuffle).map fun u => (u, g u)).map Prod.fst = uttsid zip shuffle := by
      rw [List.map_map]
      exact List.map_id _
    refine ⟨_, hloop, ?_, hfst, fun h => by rw [hfst]; exact hsorted h⟩
    have hz : utts = (utts.map Prod.fst).map fun u => (u, g u) := by
      rw [List.map_map]
      conv_lhs => rw [← List.map_id utts]
      refine List.map_congr_left fun p hp2 => ?_
      have h1 : p.1 ∈ uttsid zip shuffle := hids.mem_iff.2 (List.mem_map.2 ⟨p, hp2, rfl⟩)
      exact List.inj_on_of_nodup_map hn hp2 (hg p.1 h1) rfl
    conv_rhs => rw [hz]
    exact hids.map _

/-- The iteration gives every utterance once with its features, and ends; without `random_order` the identifiers
are sorted; with it, the order is the one drawn. -/
theorem C133_iteration (zip : List (Name × F)) (hn : (zip.map Prod.fst).Nodup) (hp : ∀ p ∈ zip, PlainId p.1)
    (shuffle : Option (List Name → List Name)) (hs : ∀ f, shuffle = some f → ∀ l, List.Perm (f l) l) :
    ∃ l, loop (uttsid zip shuffle) zip (zip.length + 1) 0 = .ok (some l) ∧ List.Perm l zip ∧
      l.map Prod.fst = uttsid zip shuffle ∧ (shuffle = none → (l.map Prod.fst).Pairwise (· < ·)) := by
  refine iteration_of zip zip (by rw [files_plain zip hp]) hn (fun p h => ?_) shuffle hs
  unfold load
  rw [entry_of_mem zip hn p.1 p.2 h]

/-- The same for an archive written by `numpy.savez`, whose entries have the extension `.npy`: the identifiers are
those given to `savez`. -/
theorem C133_savez (utts : List (Name × F)) (hn : (utts.map Prod.fst).Nodup) (hp : ∀ p ∈ utts, PlainId p.1)
    (shuffle : Option (List Name → List Name)) (hs : ∀ f, shuffle = some f → ∀ l, List.Perm (f l) l) :
    let zip := utts.map fun p => (p.1 ++ npy, p.2)
    Dataset.length zip = utts.length ∧
    (∀ u f, (u, f) ∈ utts → getitem zip u = .ok (u, f)) ∧
    ∃ l, loop (uttsid zip shuffle) zip (utts.length + 1) 0 = .ok (some l) ∧ List.Perm l utts ∧
      l.map Prod.fst = uttsid zip shuffle ∧ (shuffle = none → (l.map Prod.fst).Pairwise (· < ·)) := by
  intro zip
  have hf : files zip = utts.map Prod.fst := by
    show ((utts.map fun p => (p.1 ++ npy, p.2)).map _) = _
    rw [List.map_map]
    refine List.map_congr_left fun p _ => ?_
    show (if npy <:+ p.1 ++ npy then (p.1 ++ npy).take ((p.1 ++ npy).length - 4) else p.1 ++ npy) = p.1
    rw [if_pos (List.suffix_append _ _)]
    have : (p.1 ++ npy).length - 4 = p.1.length := by simp [npy]
    rw [this, List.take_left]
  have hz : (zip.map Prod.fst).Nodup := by
    have : zip.map Prod.fst = (utts.map Prod.fst).map (· ++ npy) := by
      show (utts.map _).map Prod.fst = _
      rw [List.map_map, List.map_map]
      rfl
    rw [this]
    exact hn.map fun a b h => List.append_cancel_right h
  have hl : ∀ p ∈ utts, load zip p.1 = .ok p.2 := by
    intro p h
    unfold load
    rw [entry_none zip p.1 fun h2 => ?_]
    · dsimp only
      rw [entry_of_mem zip hz (p.1 ++ npy) p.2 (List.mem_map.2 ⟨p, h, rfl⟩)]
    · obtain ⟨q, h3, h4⟩ := List.mem_map.1 h2
      obtain ⟨r, -, rfl⟩ := List.mem_map.1 h3
      exact (hp p h).2.2 (by rw [← h4]; exact (List.suffix_append r.1 npy).isInfix)
  refine ⟨?_, fun u f h => ?_, iteration_of zip utts (by rw [hf]) hn hl shuffle hs⟩
  · unfold Dataset.length
    rw [hf, List.length_map]
  · unfold getitem
    rw [hl (u, f) h]

example : loop (uttsid [("b.npy".toList, 2), ("a.npy".toList, 1)] none) [("b.npy".toList, 2), ("a.npy".toList, 1)] 3 0 =
    .ok (some [(['a'], 1), (['b'], 2)]) := by decide +kernel

/-- An archive of three utterances: the order is that of the identifiers. -/
example : loop (uttsid [(['b'], 2), (['a', 'z'], 3), (['a'], 1)] none) [(['b'], 2), (['a', 'z'], 3), (['a'], 1)] 4 0 =
    .ok (some [(['a'], 1), (['a', 'z'], 3), (['b'], 2)]) := by decide +kernel

/-- With two entries of the same name, as in `C132_renamed`, the iteration gives the last features twice and never
the first ones. -/
theorem C133_iteration_twice :
    loop (uttsid [(['a', 'b'], 1), (['a', 'b'], 2)] none) [(['a', 'b'], 1), (['a', 'b'], 2)] 3 0 =
      .ok (some [(['a', 'b'], 2), (['a', 'b'], 2)]) := by decide +kernel

/-- The hypotheses of `C133_iteration` hold of the archive of the round trip: extraction, archive and iteration give
back the utterances. -/
theorem C133_extract_iterate (utts dir : List (Name × F)) (hn : (utts.map Prod.fst).Nodup)
    (hp : ∀ p ∈ utts, PlainId p.1) (hdir : List.Perm dir (extractDir utts [])) :
    ∃ l, loop (uttsid (archive ['n', 'p', 'y'] dir) none) (archive ['n', 'p', 'y'] dir) (utts.length + 1) 0 =
      .ok (some l) ∧ List.Perm l utts ∧ (l.map Prod.fst).Pairwise (· < ·) := by
  have hperm := archive_perm utts dir hn hp hdir
  obtain ⟨l, h1, h2, -, h4⟩ := C133_iteration (archive ['n', 'p', 'y'] dir)
    ((hperm.map Prod.fst).nodup_iff.2 hn) (fun p h => hp p (hperm.mem_iff.1 h)) none (by simp)
  rw [hperm.length_eq] at h1
  exact ⟨l, h1, h2.trans hperm, h4 rfl⟩

end Verif.Props
