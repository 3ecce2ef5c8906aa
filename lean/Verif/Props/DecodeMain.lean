import Verif.Props.DecodeCmd
import Verif.Lemmas.HInit

/-!
# Properties: the commands which decode and make alignment graphs (C154)
-/

namespace Verif.DecodeCmd

open Verif Verif.Spec Verif.Graph Verif.Pipeline Verif.Decode

theorem aliOf_spec (m : HModel) (alis : Option (List (String × LGraph))) (name : String) :
    GraphFor m alis name ((aliOf alis name).getD m.graph) := by
  unfold aliOf GraphFor
  cases alis with
  | none => exact Or.inr ⟨Or.inl rfl, rfl⟩
  | some d =>
    dsimp only
    by_cases hd : d = []
    · rw [if_pos hd]
      exact Or.inr ⟨Or.inr ⟨d, rfl, by simp [hd]⟩, rfl⟩
    · rw [if_neg hd]
      cases h : dictGet d name with
      | error e =>
        refine Or.inr ⟨Or.inr ⟨d, rfl, ?_⟩, rfl⟩
        rw [← HInit.dictGet_isOk, h]
        rintro ⟨v, hv⟩
        cases hv
      | ok g => exact Or.inl ⟨d, rfl, h⟩

theorem graphFor_unique (m : HModel) (alis : Option (List (String × LGraph))) (name : String) (g g' : LGraph)
    (h : GraphFor m alis name g) (h' : GraphFor m alis name g') : g = g' := by
  rcases h with ⟨d, h1, h2⟩ | ⟨h1, h2⟩ <;> rcases h' with ⟨d', h1', h2'⟩ | ⟨h1', h2'⟩
  · rw [h1] at h1'
    cases h1'
    rw [h2] at h2'
    exact Except.ok.inj h2'
  · rcases h1' with h1' | ⟨d', h1', h3⟩
    · rw [h1] at h1'; cases h1'
    · rw [h1] at h1'
      cases h1'
      exact absurd ((HInit.dictGet_isOk d name).1 ⟨_, h2⟩) h3
  · rcases h1 with h1 | ⟨d, h1, h3⟩
    · rw [h1] at h1'; cases h1'
    · rw [h1] at h1'
      cases h1'
      exact absurd ((HInit.dictGet_isOk _ name).1 ⟨_, h2'⟩) h3
  · rw [h2, h2']

/-- One utterance: `decode` then `state2phone`. -/
noncomputable def answer (am : Argmax) (m : HModel) (scale : ℝ) (perFrame : Bool) (alis : Option (List (String × LGraph)))
    (name : String) (x : Feats) : Except Err (List String) :=
  match decode am m scale (aliOf alis name) x with
  | .error e => .error e
  | .ok path => state2phone (starts m.startPdf) perFrame path

theorem answer_iff (am : Argmax) (m : HModel) (scale : ℝ) (perFrame : Bool) (alis : Option (List (String × LGraph)))
    (dataset : List (String × Feats)) (name : String) (x : Feats) (hx : dictGet dataset name = .ok x)
    (r : Except Err (List String)) :
    Answer am m scale perFrame alis dataset name r ↔ r = answer am m scale perFrame alis name x := by
  have hd : decode am m scale (aliOf alis name) x = decode am m scale (some ((aliOf alis name).getD m.graph)) x := by
    unfold decode
    simp only [Option.getD_some]
  constructor
  · rintro ⟨x', g, h1, h2, rfl⟩
    rw [hx] at h1
    have := Except.ok.inj h1
    subst this
    unfold answer
    rw [hd, graphFor_unique m alis name g _ h2 (aliOf_spec m alis name)]
    rfl
  · rintro rfl
    refine ⟨x, _, hx, aliOf_spec m alis name, ?_⟩
    unfold answer
    rw [hd]
    rfl

theorem loop_cons_found (am : Argmax) (m : HModel) (scale : ℝ) (pf : Bool) (alis : Option (List (String × LGraph)))
    (dataset : List (String × Feats)) (b : Bool) (name : String) (rest : List String) (x : Feats)
    (hx : dictGet dataset name = .ok x) :
    decodeLoop am m scale pf alis dataset b (name :: rest) =
      match answer am m scale pf alis name x with
      | .error e => ([], some e)
      | .ok phones => ((name, phones) :: (decodeLoop am m scale pf alis dataset true rest).1,
          (decodeLoop am m scale pf alis dataset true rest).2) := by
  simp only [decodeLoop, hx, answer]
  cases decode am m scale (aliOf alis name) x with
  | error e => rfl
  | ok path =>
    dsimp only
    cases state2phone (starts m.startPdf) pf path <;> rfl

theorem loop_lines (am : Argmax) (m : HModel) (scale : ℝ) (pf : Bool) (alis : Option (List (String × LGraph)))
    (dataset : List (String × Feats)) (names post : List String) (b : Bool)
    (hb : b = true ∨ ∃ a, (names ++ post).head? = some a ∧ a ∈ dataset.map Prod.fst)
    (hok : ∀ name ∈ names, ∀ x, dictGet dataset name = .ok x → ∃ phones, answer am m scale pf alis name x = .ok phones) :
    ∃ lines : List (String × List String), lines.map Prod.fst = names.filter (· ∈ dataset.map Prod.fst)
      ∧ (∀ l ∈ lines, ∃ x, dictGet dataset l.1 = .ok x ∧ answer am m scale pf alis l.1 x = .ok l.2)
      ∧ ∃ b', (b' = true ∨ (names = [] ∧ b' = b)) ∧
      decodeLoop am m scale pf alis dataset b (names ++ post) =
        (lines ++ (decodeLoop am m scale pf alis dataset b' post).1, (decodeLoop am m scale pf alis dataset b' post).2) := by
  induction names generalizing b with
  | nil => exact ⟨[], rfl, by simp, b, Or.inr ⟨rfl, rfl⟩, rfl⟩
  | cons name names ih =>
    have hok' := fun n hn => hok n (List.mem_cons_of_mem _ hn)
    by_cases hm : name ∈ dataset.map Prod.fst
    · obtain ⟨x, hx⟩ := (HInit.dictGet_isOk dataset name).2 hm
      obtain ⟨phones, hp⟩ := hok name List.mem_cons_self x hx
      obtain ⟨lines, l1, l2, b', l3, l4⟩ := ih true (Or.inl rfl) hok'
      refine ⟨(name, phones) :: lines, ?_, ?_, true, Or.inl rfl, ?_⟩
      · rw [List.map_cons, l1, List.filter_cons_of_pos (by simpa using hm)]
      · intro l hl
        rcases List.mem_cons.1 hl with rfl | hl
        · exact ⟨x, hx, hp⟩
        · exact l2 l hl
      · have hb' : b' = true := by
          rcases l3 with h | h
          · exact h
          · exact h.2
        subst hb'
        rw [List.cons_append, loop_cons_found _ _ _ _ _ _ _ _ _ x hx, hp, l4]
        rfl
    · have hb1 : b = true := by
        rcases hb with h | ⟨a, h1, h2⟩
        · exact h
        · rw [List.cons_append, List.head?_cons] at h1
          cases h1
          exact absurd h2 hm
      subst hb1
      obtain ⟨lines, l1, l2, b', l3, l4⟩ := ih true (Or.inl rfl) hok'
      refine ⟨lines, ?_, l2, true, Or.inl rfl, ?_⟩
      · rw [l1, List.filter_cons_of_neg (by simpa using hm)]
      · have hb' : b' = true := by
          rcases l3 with h | h
          · exact h
          · exact h.2
        subst hb'
        rw [List.cons_append, ← l4]
        have : ¬ ∃ v, dictGet dataset name = .ok v := fun h => hm ((HInit.dictGet_isOk dataset name).1 h)
        cases hg : dictGet dataset name with
        | ok v => exact absurd ⟨v, hg⟩ this
        | error e => simp only [decodeLoop, hg, if_pos]

theorem uttNames_ok (utts : Option (List (List String))) (dataset : List (String × Feats)) (names : List String)
    (h : Chosen utts dataset names) : uttNames utts dataset = .ok names := by
  unfold Chosen at h
  unfold uttNames
  cases utts with
  | none => dsimp only at h ⊢; rw [h]
  | some ls =>
    dsimp only at h ⊢
    induction h with
    | nil => rfl
    | cons h _ ih =>
      rename_i l name ls names _
      cases l with
      | nil => cases h
      | cons t l =>
        have : t = name := by simpa using h
        subst this
        simp only [Eval.listComp, ih]

end Verif.DecodeCmd

namespace Verif.Props

open Verif Verif.Spec Verif.Graph Verif.Pipeline Verif.Decode Verif.DecodeCmd

/-- **C154 (lines).** When the first utterance asked for is in the data set and those of the data set can be decoded,
the command ends without error and prints one line for each utterance asked for which is in the data set, in order,
with what is decoded for it; the others are left out. -/
theorem C154_lines (am : Argmax) (m : HModel) (scale : ℝ) (pf : Bool) (alis : Option (List (String × LGraph)))
    (utts : Option (List (List String))) (dataset : List (String × Feats)) (names : List String)
    (hc : Chosen utts dataset names) (hf : ∀ a, names.head? = some a → a ∈ dataset.map Prod.fst)
    (hok : ∀ name ∈ names, name ∈ dataset.map Prod.fst → ∃ phones, Answer am m scale pf alis dataset name (.ok phones)) :
    ∃ lines, main am m scale pf alis utts dataset = (lines, none)
      ∧ lines.map Prod.fst = names.filter (· ∈ dataset.map Prod.fst)
      ∧ ∀ l ∈ lines, Answer am m scale pf alis dataset l.1 (.ok l.2) := by
  have hm : main am m scale pf alis utts dataset = decodeLoop am m scale pf alis dataset false names := by
    unfold main
    rw [uttNames_ok utts dataset names hc]
  rw [hm]
  cases names with
  | nil => exact ⟨[], rfl, rfl, by simp⟩
  | cons a names =>
    obtain ⟨lines, l1, l2, b', -, l4⟩ := loop_lines am m scale pf alis dataset (a :: names) [] false
      (Or.inr ⟨a, rfl, hf a rfl⟩) (by
        intro name hn x hx
        obtain ⟨phones, hp⟩ := hok name hn ((HInit.dictGet_isOk dataset name).1 ⟨x, hx⟩)
        exact ⟨phones, ((answer_iff am m scale pf alis dataset name x hx _).1 hp).symm⟩)
    rw [List.append_nil] at l4
    refine ⟨lines, ?_, l1, ?_⟩
    · rw [l4]; simp [decodeLoop]
    · intro l hl
      obtain ⟨x, hx, hl⟩ := l2 l hl
      exact (answer_iff am m scale pf alis dataset l.1 x hx _).2 hl.symm

/-- **C154 (errors).** The first utterance which cannot be decoded ends the command with the error: the lines of the
utterances before are printed, nothing for this one and those after. -/
theorem C154_stops (am : Argmax) (m : HModel) (scale : ℝ) (pf : Bool) (alis : Option (List (String × LGraph)))
    (utts : Option (List (List String))) (dataset : List (String × Feats)) (names post : List String) (bad : String)
    (e : Err) (hc : Chosen utts dataset (names ++ bad :: post))
    (hf : ∀ a, names.head? = some a → a ∈ dataset.map Prod.fst)
    (hok : ∀ name ∈ names, name ∈ dataset.map Prod.fst → ∃ phones, Answer am m scale pf alis dataset name (.ok phones))
    (hbad : Answer am m scale pf alis dataset bad (.error e)) :
    ∃ lines, main am m scale pf alis utts dataset = (lines, some e)
      ∧ lines.map Prod.fst = names.filter (· ∈ dataset.map Prod.fst)
      ∧ ∀ l ∈ lines, Answer am m scale pf alis dataset l.1 (.ok l.2) := by
  have hm : main am m scale pf alis utts dataset = decodeLoop am m scale pf alis dataset false (names ++ bad :: post) := by
    unfold main
    rw [uttNames_ok utts dataset _ hc]
  rw [hm]
  obtain ⟨xb, -, hxb, -⟩ := id hbad
  have hbad' := (answer_iff am m scale pf alis dataset bad xb hxb _).1 hbad
  obtain ⟨lines, l1, l2, b', -, l4⟩ := loop_lines am m scale pf alis dataset names (bad :: post) false
    (Or.inr (by
      cases names with
      | nil => exact ⟨bad, rfl, (HInit.dictGet_isOk dataset bad).1 ⟨xb, hxb⟩⟩
      | cons a names => exact ⟨a, rfl, hf a rfl⟩)) (by
      intro name hn x hx
      obtain ⟨phones, hp⟩ := hok name hn ((HInit.dictGet_isOk dataset name).1 ⟨x, hx⟩)
      exact ⟨phones, ((answer_iff am m scale pf alis dataset name x hx _).1 hp).symm⟩)
  refine ⟨lines, ?_, l1, ?_⟩
  · rw [l4, loop_cons_found _ _ _ _ _ _ _ _ _ xb hxb, ← hbad']; simp
  · intro l hl
    obtain ⟨x, hx, hl⟩ := l2 l hl
    exact (answer_iff am m scale pf alis dataset l.1 x hx _).2 hl.symm

/-- **C154 (no frames).** An utterance without frames cannot be decoded. -/
theorem C154_no_frames (am : Argmax) (m : HModel) (scale : ℝ) (pf : Bool) (alis : Option (List (String × LGraph)))
    (dataset : List (String × Feats)) (name : String) (x : Feats) (hx : dictGet dataset name = .ok x) (h0 : x.n = 0) :
    Answer am m scale pf alis dataset name (.error .indexError) := by
  refine ⟨x, _, hx, aliOf_spec m alis name, ?_⟩
  obtain ⟨n, llh⟩ := x
  dsimp only at h0
  subst h0
  have : decode am m scale (some ((aliOf alis name).getD m.graph)) ⟨0, llh⟩ = .error .indexError := by
    unfold decode
    dsimp only
    split <;> rfl
  rw [this]

/-- **C154 (negation).** When the first utterance asked for is not in the data set, the command fails with `NameError`
and prints nothing, instead of warning and going on. -/
theorem C154_first_missing (am : Argmax) (m : HModel) (scale : ℝ) (pf : Bool) (alis : Option (List (String × LGraph)))
    (utts : Option (List (List String))) (dataset : List (String × Feats)) (names : List String) (name : String)
    (hc : Chosen utts dataset (name :: names)) (hm : name ∉ dataset.map Prod.fst) :
    main am m scale pf alis utts dataset = ([], some .nameError) := by
  unfold main
  rw [uttNames_ok utts dataset _ hc]
  dsimp only
  have : ¬ ∃ v, dictGet dataset name = .ok v := fun h => hm ((HInit.dictGet_isOk dataset name).1 h)
  cases hg : dictGet dataset name with
  | ok v => exact absurd ⟨v, hg⟩ this
  | error e => simp only [decodeLoop, hg, Bool.false_eq_true, if_false]

/-- **C154 (negation).** A blank line in the list of utterances makes the command fail before it prints anything. -/
theorem C154_blank_line (am : Argmax) (m : HModel) (scale : ℝ) (pf : Bool) (alis : Option (List (String × LGraph)))
    (ls : List (List String)) (hb : [] ∈ ls) (dataset : List (String × Feats)) :
    main am m scale pf alis (some ls) dataset = ([], some .indexError) := by
  have : uttNames (some ls) dataset = .error .indexError := by
    unfold uttNames
    dsimp only
    induction ls with
    | nil => cases hb
    | cons l ls ih =>
      cases l with
      | nil => rfl
      | cons t l =>
        have := ih ((List.mem_cons.1 hb).resolve_left (by simp))
        simp only [Eval.listComp, this]
  unfold main
  rw [this]

/-- **C154 (alignment graphs).** When no line is blank and the graphs can be made, `hmm mkaligraph` ends without error
and the file of an utterance is the graph of its last transcription with at least one unit; an utterance without such
a line has no file. -/
theorem C154_mkali {F : Type} [Field F] [LinearOrder F] (units : List (String × Graph F)) (lines : List (List String))
    (hb : [] ∉ lines) (hok : ∀ l ∈ lines, 2 ≤ l.length → ∃ c, createGraphFromSeq l.tail units = .ok c) :
    ∃ files, mkali units lines [] = (files, none)
      ∧ ∀ u c, dictGet files u = .ok c ↔ ∃ pre l post, lines = pre ++ l :: post ∧ 2 ≤ l.length ∧ l.head? = some u
        ∧ createGraphFromSeq l.tail units = .ok c ∧ ∀ l' ∈ post, l'.head? = some u → l'.length < 2 := by
  suffices h : ∀ (files : List (String × Compiled F)), ∃ files', mkali units lines files = (files', none)
      ∧ ∀ u c, dictGet files' u = .ok c ↔ (∃ pre l post, lines = pre ++ l :: post ∧ 2 ≤ l.length ∧ l.head? = some u
        ∧ createGraphFromSeq l.tail units = .ok c ∧ ∀ l' ∈ post, l'.head? = some u → l'.length < 2)
        ∨ (dictGet files u = .ok c ∧ ∀ l' ∈ lines, l'.head? = some u → l'.length < 2) by
    obtain ⟨files, h1, h2⟩ := h []
    refine ⟨files, h1, fun u c => (h2 u c).trans ⟨fun h => h.resolve_right fun h => ?_, Or.inl⟩⟩
    cases h.1
  induction lines with
  | nil =>
    intro files
    refine ⟨files, rfl, fun u c => ⟨fun h => Or.inr ⟨h, by simp⟩, ?_⟩⟩
    rintro (⟨pre, l, post, h, -⟩ | h)
    · simp at h
    · exact h.1
  | cons l lines ih =>
    intro files
    have ih' := ih (fun h => hb (List.mem_cons_of_mem _ h)) fun l hl => hok l (List.mem_cons_of_mem _ hl)
    rcases l with _ | ⟨t, _ | ⟨p, ps⟩⟩
    · exact absurd List.mem_cons_self hb
    · obtain ⟨files', h1, h2⟩ := ih' files
      refine ⟨files', h1, fun u c => (h2 u c).trans (or_congr ?_ (and_congr_right fun _ => ?_))⟩
      · constructor
        · rintro ⟨pre, l, post, rfl, h⟩
          exact ⟨[t] :: pre, l, post, rfl, h⟩
        · rintro ⟨pre, l, post, h, h'⟩
          cases pre with
          | nil =>
            rw [List.nil_append, List.cons.injEq] at h
            rw [← h.1] at h'
            exact absurd h'.1 (by simp)
          | cons a pre =>
            rw [List.cons_append, List.cons.injEq] at h
            exact ⟨pre, l, post, h.2, h'⟩
      · simp
    · obtain ⟨c0, hc0⟩ := hok (t :: p :: ps) List.mem_cons_self (by simp)
      have hc0' : createGraphFromSeq (p :: ps) units = .ok c0 := hc0
      obtain ⟨files', h1, h2⟩ := ih' (dictSet files t c0)
      refine ⟨files', by simp only [mkali, hc0']; exact h1, fun u c => (h2 u c).trans ?_⟩
      by_cases hut : u = t
      · subst hut
        rw [HInit.dictGet_set_self]
        constructor
        · rintro (⟨pre, l, post, rfl, h⟩ | ⟨h, h'⟩)
          · exact Or.inl ⟨(u :: p :: ps) :: pre, l, post, rfl, h⟩
          · exact Or.inl ⟨[], _, lines, rfl, by simp, rfl, by rw [← h]; exact hc0, h'⟩
        · rintro (⟨pre, l, post, h, h'⟩ | ⟨-, h⟩)
          · cases pre with
            | nil =>
              rw [List.nil_append, List.cons.injEq] at h
              obtain ⟨rfl, rfl⟩ := h
              refine Or.inr ⟨?_, h'.2.2.2⟩
              rw [← hc0]
              exact h'.2.2.1
            | cons a pre =>
              rw [List.cons_append, List.cons.injEq] at h
              exact Or.inl ⟨pre, l, post, h.2, h'⟩
          · exact absurd (h _ List.mem_cons_self rfl) (by simp)
      · rw [HInit.dictGet_set_other _ _ _ _ hut]
        refine or_congr ?_ (and_congr_right fun _ => ?_)
        · constructor
          · rintro ⟨pre, l, post, rfl, h⟩
            exact ⟨(t :: p :: ps) :: pre, l, post, rfl, h⟩
          · rintro ⟨pre, l, post, h, h'⟩
            cases pre with
            | nil =>
              rw [List.nil_append, List.cons.injEq] at h
              rw [← h.1] at h'
              have := h'.2.1
              simp only [List.head?_cons, Option.some.injEq] at this
              exact absurd this.symm hut
            | cons a pre =>
              rw [List.cons_append, List.cons.injEq] at h
              exact ⟨pre, l, post, h.2, h'⟩
        · simp [Ne.symm hut]

/-- **C154 (negation).** A blank line makes `hmm mkaligraph` fail; the graphs of the lines before are written. -/
theorem C154_mkali_blank {F : Type} [Field F] [LinearOrder F] (units : List (String × Graph F)) (pre post : List (List String))
    (files files' : List (String × Compiled F)) (hp : mkali units pre files = (files', none)) :
    mkali units (pre ++ [] :: post) files = (files', some .indexError) := by
  induction pre generalizing files with
  | nil => cases hp; rfl
  | cons l pre ih =>
    rcases l with _ | ⟨t, _ | ⟨p, ps⟩⟩
    · cases hp
    · exact ih files hp
    · simp only [mkali] at hp
      rw [List.cons_append]
      simp only [mkali]
      split at hp
      · cases hp
      · rename_i c hc
        exact ih _ hp

/-- **C154 (end to end).** The graphs made by `hmm mkaligraph` from the transcriptions in the units of an inventory being
given to `hmm decode`: an utterance whose number of frames fits its (last) transcription gets its transcription
printed, whatever its features, when no unit which directly repeats has a single entry-and-exit pdf. -/
theorem C154_forced (hmms : List (String × Graph ℝ)) (n : ℕ) (h : Inventory hmms n) (lines : List (List String))
    (hb : [] ∉ lines) (hu : ∀ l ∈ lines, ∀ u ∈ l.tail, u ∈ hmms.map Prod.fst) :
    ∃ entry exit files, entryExit hmms ([], []) = .ok (entry, exit) ∧ mkali hmms lines [] = (files, none)
      ∧ ∀ (alis : List (String × LGraph)), (∀ u c g, dictGet files u = .ok c → logGraph c = .ok g → dictGet alis u = .ok g) →
        ∀ (am : Argmax), (∀ k, IsArgmax (am k)) → ∀ m : HModel, m.nPdfs = n → m.startPdf = entry → ∀ (scale : ℝ) dataset,
        ∀ pre u seq post, lines = pre ++ (u :: seq) :: post → seq ≠ [] → (∀ l ∈ post, l.head? = some u → l.length < 2) →
          seq.IsChain (fun u v => u = v → dictGet entry u ≠ dictGet exit u) →
          ∀ x ws, dictGet dataset u = .ok x → Spoken hmms seq ws → x.n = ws.flatten.length →
            Answer am m scale false (some alis) dataset u (.ok seq) := by
  obtain ⟨entry, exit, h1, -, -⟩ := spoken_printed hmms n h
  have hgood : ∀ l ∈ lines, 2 ≤ l.length → ∃ c, createGraphFromSeq l.tail hmms = .ok c := by
    intro l hl h2
    obtain ⟨-, -, c, -, hc, -⟩ := C153_alignment hmms n h l.tail (by
      intro h0
      have := congrArg List.length h0
      rw [List.length_tail, List.length_nil] at this
      omega) (hu l hl)
    exact ⟨c, hc⟩
  obtain ⟨files, f1, f2⟩ := C154_mkali hmms lines hb hgood
  refine ⟨entry, exit, files, h1, f1, ?_⟩
  intro alis halis am ham m hmn hms scale dataset pre u seq post hl hne hpost hrep x ws hx hws hn
  obtain ⟨entry', exit', c, e1, e2, e3⟩ := C153_alignment hmms n h seq hne (hu (u :: seq) (by rw [hl]; simp))
  rw [h1] at e1
  obtain ⟨rfl, rfl⟩ := Prod.ext_iff.1 (Except.ok.inj e1)
  obtain ⟨g, g1, g2⟩ := e3 ws hws
  obtain ⟨ws', -, -, g3, -, -, g4⟩ := g2 am ham m hmn hms scale x hn
  have hlen : 2 ≤ (u :: seq).length := by
    have := List.length_pos_iff.2 hne
    rw [List.length_cons]; omega
  refine ⟨x, g, hx, Or.inl ⟨alis, rfl, halis u c g ((f2 u c).2 ⟨pre, u :: seq, post, hl, hlen, rfl, e2, hpost⟩) g1⟩, ?_⟩
  rw [g3]
  exact (g4 hrep).symm

/-! ## Examples -/

-- two utterances, the transcription of the first one is given twice, the second one has none
example : ∃ files, mkali demoInv [["u1", "b"], ["u2"], ["u1", "a", "b", "a"]] [] = (files, none)
    ∧ (∃ c, dictGet files "u1" = .ok c ∧ createGraphFromSeq ["a", "b", "a"] demoInv = .ok c)
    ∧ ∀ c, dictGet files "u2" ≠ .ok c := by
  have hmk : ∀ seq : List String, seq ≠ [] → (∀ u ∈ seq, u ∈ demoInv.map Prod.fst) → ∃ c, createGraphFromSeq seq demoInv = .ok c := by
    intro seq h1 h2
    obtain ⟨-, -, c, -, h, -⟩ := C153_alignment demoInv 3 demoInv_ok seq h1 h2
    exact ⟨c, h⟩
  obtain ⟨files, h1, h2⟩ := C154_mkali demoInv [["u1", "b"], ["u2"], ["u1", "a", "b", "a"]] (by simp) (by
    intro l hl hl2
    simp only [List.mem_cons, List.not_mem_nil, or_false] at hl
    rcases hl with rfl | rfl | rfl
    · exact hmk _ (by simp) (by simp [demoInv])
    · simp at hl2
    · exact hmk _ (by simp) (by simp [demoInv]))
  obtain ⟨c, hc⟩ := hmk ["a", "b", "a"] (by simp) (by simp [demoInv])
  refine ⟨files, h1, ⟨c, (h2 _ _).2 ⟨[["u1", "b"], ["u2"]], _, [], rfl, by simp, rfl, hc, by simp⟩, hc⟩, ?_⟩
  intro c hc
  obtain ⟨pre, l, post, h3, h4, h5, -⟩ := (h2 _ _).1 hc
  have : l ∈ [["u1", "b"], ["u2"], ["u1", "a", "b", "a"]] := by rw [h3]; simp
  simp only [List.mem_cons, List.not_mem_nil, or_false] at this
  rcases this with rfl | rfl | rfl <;> simp at h4 h5

-- the utterance `u1` of five frames gets its transcription, an utterance which is not in the data set is left out
example (am : Argmax) (ham : ∀ k, IsArgmax (am k)) (llh : Fin 5 → ℕ → ℝ) (scale : ℝ) (g' : LGraph) :
    ∃ entry files, mkali demoInv [["u1", "a", "b", "a"]] [] = (files, none) ∧
      ∀ alis, (∀ u c g, dictGet files u = .ok c → logGraph c = .ok g → dictGet alis u = .ok g) →
        main am ⟨g', 3, entry⟩ scale false (some alis) (some [["u1"], ["u2", "x"]]) [("u1", ⟨5, llh⟩)]
          = ([("u1", ["a", "b", "a"])], none) := by
  obtain ⟨entry, exit, files, -, h2, h3⟩ := C154_forced demoInv 3 demoInv_ok [["u1", "a", "b", "a"]] (by simp)
    (by simp [demoInv])
  refine ⟨entry, files, h2, fun alis halis => ?_⟩
  have hans := h3 alis halis am ham ⟨g', 3, entry⟩ rfl rfl scale [("u1", ⟨5, llh⟩)] [] "u1" ["a", "b", "a"] [] rfl
    (by simp) (by simp) (by simp) ⟨5, llh⟩ _ (by simp [dictGet]) demo_spoken rfl
  obtain ⟨lines, h4, h5, h6⟩ := C154_lines am ⟨g', 3, entry⟩ scale false (some alis) (some [["u1"], ["u2", "x"]])
    [("u1", ⟨5, llh⟩)] ["u1", "u2"] (.cons rfl (.cons rfl .nil)) (by simp) (by
      intro name _ hn
      have : name = "u1" := by simpa using hn
      subst this
      exact ⟨_, hans⟩)
  rw [h4]
  have h7 : lines.map Prod.fst = ["u1"] := by rw [h5]; simp
  rcases lines with _ | ⟨⟨u, phones⟩, _ | ⟨l, ls⟩⟩
  · cases h7
  · have hu : u = "u1" := by simpa using h7
    subst hu
    have ha := h6 _ List.mem_cons_self
    dsimp only at ha
    have hx : dictGet [("u1", (⟨5, llh⟩ : Feats))] "u1" = .ok ⟨5, llh⟩ := by simp [dictGet]
    have e1 := (answer_iff _ _ _ _ _ _ _ _ hx _).1 ha
    have e2 := (answer_iff _ _ _ _ _ _ _ _ hx _).1 hans
    rw [Except.ok.inj (e1.trans e2.symm)]
  · simp at h7

-- the other way round nothing is printed
example (am : Argmax) (llh : Fin 5 → ℕ → ℝ) (scale : ℝ) (m : HModel) :
    main am m scale false none (some [["u2"], ["u1"]]) [("u1", ⟨5, llh⟩)] = ([], some .nameError) :=
  C154_first_missing am m scale false none _ _ ["u1"] "u2" (.cons rfl (.cons rfl .nil)) (by simp)

-- an utterance without frames ends the command
example (am : Argmax) (llh : Fin 0 → ℕ → ℝ) (scale : ℝ) (m : HModel) :
    main am m scale false none none [("u1", ⟨0, llh⟩)] = ([], some .indexError) := by
  obtain ⟨lines, h1, h2, -⟩ := C154_stops am m scale false none none [("u1", ⟨0, llh⟩)] [] [] "u1" .indexError rfl (by simp)
    (by simp) (C154_no_frames am m scale false none [("u1", ⟨0, llh⟩)] "u1" ⟨0, llh⟩ (by simp [dictGet]) rfl)
  rw [h1, List.map_eq_nil_iff.1 h2]

example (am : Argmax) (scale : ℝ) (m : HModel) (dataset : List (String × Feats)) :
    main am m scale true none (some [["u1"], []]) dataset = ([], some .indexError) :=
  C154_blank_line am m scale true none _ (by simp) dataset

example : mkali demoInv ([["u2"]] ++ [] :: [["u1", "a"]]) [] = ([], some .indexError) :=
  C154_mkali_blank demoInv [["u2"]] [["u1", "a"]] [] [] rfl

end Verif.Props
