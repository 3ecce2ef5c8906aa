import Verif.Lemmas.AliGraph
import Verif.Lemmas.GraphDirect
import Mathlib.Algebra.Field.Rat
import Mathlib.Algebra.Order.Ring.Rat

/-!
# Properties: alignment graphs (C09)
-/

namespace Verif.Props

open Verif Verif.Spec Verif.Graph Verif.Pipeline

variable {F : Type} [Field F] [LinearOrder F] [IsStrictOrderedRing F]

omit [Field F] [LinearOrder F] [IsStrictOrderedRing F] in
/-- The graphs of the units of a sequence. -/
theorem exists_subs {P : Graph F → Prop} (units : List (String × Graph F))
    (hn : (units.map Prod.fst).Nodup) (seq : List String)
    (h : ∀ u ∈ seq, ∃ hmm, (u, hmm) ∈ units ∧ P hmm) :
    ∃ subs : List (Graph F), List.Forall₂ (fun u g => (u, g) ∈ units ∧ P g ∧ dictGet units u = .ok g)
      seq subs := by
  induction seq with
  | nil => exact ⟨[], .nil⟩
  | cons u seq ih =>
    obtain ⟨subs, hs⟩ := ih fun v hv => h v (List.mem_cons_of_mem _ hv)
    obtain ⟨g, hg, hP⟩ := h u List.mem_cons_self
    exact ⟨g :: subs, .cons ⟨hg, hP, dictGet_of_mem units u g hn hg⟩ hs⟩

/-- The replacements in the linear graph. -/
theorem ali_replaced (units : List (String × Graph F)) (seq : List String) (subs : List (Graph F))
    (h : List.Forall₂ (fun u g => (u, g) ∈ units ∧ WellFormed g ∧ dictGet units u = .ok g) seq subs)
    {α : Type} (lab : ℕ → List α → Prop) :
    ∃ g : Graph F, replaceSeq units ((linearGraph seq.length : Graph F × List ℕ).2.zip seq)
        (linearGraph seq.length : Graph F × List ℕ).1 = .ok g
      ∧ g.normalize.2 = none ∧ g.Inv ∧ Closed g
      ∧ g.startState = some 0 ∧ g.endState = some (seq.length + 1)
      ∧ (∀ w, Reads g (emitLab g) (seq.length + 1) 0 w ↔
          ∃ ws, List.Forall₂ (fun g w => Accepts g w) subs ws ∧ w = ws.flatten)
      ∧ (∀ w, Reads g lab (seq.length + 1) 0 w ↔
          ∃ w0 u wE, lab 0 w0 ∧ SegWords lab (seq.length + 2) subs u ∧ lab (seq.length + 1) wE
            ∧ w = w0 ++ u ++ wE)
      ∧ (∀ a ∈ g.arcs, 0 < a.weight) ∧ Silent g 0
      ∧ ((∀ h ∈ subs, Ends h) → Funnel g [] (seq.length + 1)) := by
  have hlen : seq.length = subs.length := h.length_eq
  obtain ⟨i1, i2, i3, i4, i5, i6⟩ := linearGraph_eq (F := F) seq.length
  obtain ⟨j1, j2, j3, j4⟩ := linearGraph_good (F := F) seq.length
  have harc := fun a => linearGraph_arcs (F := F) seq.length a
  have hlin : ∀ {β : Type} (lab : ℕ → List β → Prop) w, _ :=
    fun {β} (lab : ℕ → List β → Prop) w =>
      linearGraph_reads (F := F) seq.length lab 0 (seq.length + 1) (by omega) w
  generalize (linearGraph seq.length : Graph F × List ℕ) = L at *
  obtain ⟨g0, sts⟩ := L
  dsimp only at *
  subst i1
  have hfst : ((List.range' 1 seq.length).zip seq).map Prod.fst = List.range' 1 seq.length := by
    rw [List.map_fst_zip]; simp
  have hf2 : List.Forall₂ (fun (p : ℕ × String) g => dictGet units p.2 = .ok g)
      ((List.range' 1 seq.length).zip seq) subs := by
    have key : ∀ (k : ℕ) (seq : List String) (subs : List (Graph F)),
        List.Forall₂ (fun u g => (u, g) ∈ units ∧ WellFormed g ∧ dictGet units u = .ok g) seq subs →
        List.Forall₂ (fun (p : ℕ × String) g => dictGet units p.2 = .ok g)
          ((List.range' k seq.length).zip seq) subs := by
      intro k seq subs h
      induction h generalizing k with
      | nil => exact .nil
      | cons h _ ih => exact .cons h.2.2 (ih (k + 1))
    exact key 1 seq subs h
  have hw : ∀ g ∈ subs, WellFormed g := by
    clear * - h
    induction h with
    | nil => simp
    | cons h _ ih =>
      intro g hg
      rcases List.mem_cons.1 hg with rfl | hg
      · exact h.2.1
      · exact ih g hg
  set l := (List.range' 1 seq.length).zip subs with hl
  have hlf : l.map Prod.fst = List.range' 1 seq.length := by
    rw [hl, List.map_fst_zip]; simp [hlen]
  have hmem : ∀ i, i ∈ l.map Prod.fst ↔ 1 ≤ i ∧ i < 1 + seq.length := by
    intro i; rw [hlf, List.mem_range'_1]
  have hlp : ∀ p ∈ l, p.1 < seq.length + 2 ∧ Replaceable g0 p.1 ∧ ∃ a b, UnitOK p.2 a b := by
    intro p hp
    have h1 := (hmem p.1).1 (List.mem_map.2 ⟨p, hp, rfl⟩)
    refine ⟨by omega, ⟨j1, j2, ?_, ?_⟩, wellFormed_unit _ (hw _ (List.of_mem_zip hp).2)⟩
    · rw [j3]; exact List.mem_range.2 (by omega)
    · rintro x hx ⟨h1, h2⟩
      exact j4 x hx (h1.trans h2.symm)
  have h0 : 0 ∉ l.map Prod.fst := by rw [hmem]; omega
  have hE : seq.length + 1 ∉ l.map Prod.fst := by rw [hmem]; omega
  have hnd : (l.map Prod.fst).Nodup := by rw [hlf]; exact List.nodup_range'
  obtain ⟨r1, r2, r3, r4, r5, r6, r7, r8⟩ := replaceList_reads l (seq.length + 2) g0 (by omega) hnd hlp j1 j2
    lab (seq.length + 1) 0 hE (by omega) h0 (by omega)
  have r9 := replaceList_lang l (seq.length + 2) g0 (by omega) hnd hlp j1 j2 (seq.length + 1) 0 hE
    (by omega) h0 (by omega)
  have hpos : ∀ x ∈ (replaceList l g0).1.arcs, 0 < x.weight := by
    intro x hx
    obtain ⟨y, hy, hxy⟩ := r6 x hx
    rw [hxy]
    rcases hy with hy | ⟨p, hp, hy⟩
    · rw [((harc y).1 hy).2.2]; exact one_pos
    · exact (hw _ (List.of_mem_zip hp).2).weights_pos y hy
  have hsil0 : ∀ i < seq.length + 2, (i, none) ∈ g0.states := by
    intro i hi
    rw [i3]
    exact List.mem_map.2 ⟨i, List.mem_range.2 hi, rfl⟩
  have hne0 : ∀ i, ¬ Emits g0 i := by
    rintro i ⟨p, hp⟩
    rw [i3] at hp
    obtain ⟨_, _, h⟩ := List.mem_map.1 hp
    cases h
  refine ⟨(replaceList l g0).1, ?_, ?_, r2, ?_, r4.trans i5, r5.trans i6, ?_, ?_, hpos,
    replaceList_state l (seq.length + 2) g0 (by omega) hnd hlp 0 none (by omega) h0 (hsil0 0 (by omega)), fun hends => ?_⟩
  · rw [replaceSeq_eq units _ subs hf2, hfst, ← hl]
    generalize replaceList l g0 = r at *
    obtain ⟨g', e⟩ := r
    dsimp only at r1
    subst r1
    rfl
  · exact normalize_pos _ r2 hpos
  · refine r7 ?_
    intro x hx
    have := j2 x hx
    rw [j3]
    exact ⟨List.mem_range.2 (by omega), List.mem_range.2 (by omega)⟩
  · intro w
    have hsil : ∀ i < seq.length + 2, ∀ w, emitLab g0 i w ↔ w = [] := by
      intro i hi w
      unfold emitLab
      rw [i3]
      constructor
      · rintro (h | ⟨p, h, _⟩)
        · exact h.2
        · obtain ⟨_, _, h⟩ := List.mem_map.1 h
          cases h
      · intro h
        exact Or.inl ⟨List.mem_map.2 ⟨i, List.mem_range.2 hi, rfl⟩, h⟩
    rw [r9, hlin]
    simp only [LinWords]
    have hz : ∀ u, langLab l (emitLab g0) 0 u ↔ u = [] := by
      intro u
      rw [langLab_other l _ 0 u h0, hsil 0 (by omega)]
    have hrest := linWords_lang subs 1 (emitLab g0)
    rw [← hlen] at hrest
    constructor
    · rintro ⟨u, v, h1, h2, rfl⟩
      rw [hz] at h1
      rw [Nat.zero_add, hl, hrest] at h2
      obtain ⟨ws, wE, h2, h3, rfl⟩ := h2
      rw [hsil _ (by omega)] at h3
      refine ⟨ws, h2, ?_⟩
      rw [h1, h3]; simp
    · rintro ⟨ws, h2, rfl⟩
      refine ⟨[], ws.flatten, (hz _).2 rfl, ?_, rfl⟩
      rw [Nat.zero_add, hl, hrest]
      exact ⟨ws, [], h2, (hsil _ (by omega) _).2 rfl, by simp⟩
  · intro w
    rw [r8, hlin]
    simp only [LinWords]
    have hz : ∀ u, substLab l g0.count lab 0 u ↔ lab 0 u := fun u => substLab_other l _ _ 0 u h0
    have hrest := linWords_seg subs 1 (seq.length + 2) lab
    rw [← hlen] at hrest
    rw [i2] at hz ⊢
    constructor
    · rintro ⟨u, v, h1, h2, rfl⟩
      rw [hz] at h1
      rw [Nat.zero_add, hl, hrest] at h2
      obtain ⟨v', wE, h2, h3, rfl⟩ := h2
      exact ⟨u, v', wE, h1, h2, by rwa [Nat.add_comm], by rw [List.append_assoc]⟩
    · rintro ⟨w0, u, wE, h1, h2, h3, rfl⟩
      refine ⟨w0, u ++ wE, (hz _).2 h1, ?_, by rw [List.append_assoc]⟩
      rw [Nat.zero_add, hl, hrest]
      exact ⟨u, wE, h2, by rwa [Nat.add_comm], rfl⟩
  · refine funnel_list l (seq.length + 2) (seq.length + 1) g0 (by omega) hnd ?_ ?_
    · intro p hp
      obtain ⟨q1, q2, q3⟩ := hlp p hp
      exact ⟨q1, q2, q3, hends _ (List.of_mem_zip hp).2⟩
    · have honly : ∀ b ∈ g0.arcs, ∀ c ∈ g0.arcs, b.start = c.start → b = c := by
        intro b hb c hc h
        obtain ⟨b1, b2, b3⟩ := (harc b).1 hb
        obtain ⟨c1, c2, c3⟩ := (harc c).1 hc
        obtain ⟨s, e, w⟩ := b
        obtain ⟨s', e', w'⟩ := c
        dsimp only at *
        rw [b2, c2, b3, c3, h]
      refine ⟨hsil0 _ (by omega), ?_, hE, ?_, ?_, ?_⟩
      · intro a ha h
        have := ((harc a).1 ha).1
        omega
      · intro a _ he
        exact absurd he (hne0 _)
      · intro o _ b hb c hc h1 h2 _ _
        exact honly b hb c hc (h1.trans h2.symm)
      · intro a _ he
        exact absurd he (hne0 _)

omit [LinearOrder F] [IsStrictOrderedRing F] in
theorem segWords_segments (units : List (String × Graph F)) (hn : (units.map Prod.fst).Nodup)
    (seq : List String) (subs : List (Graph F)) (h : List.Forall₂ (fun u g => (u, g) ∈ units) seq subs)
    (c : ℕ) (w : List ℕ) :
    SegWords (fun i w => w = [i]) c subs w ↔ Segments units c seq w := by
  induction h generalizing c w with
  | nil => exact Iff.rfl
  | @cons u g seq subs hu _ ih =>
    simp only [SegWords, Segments]
    have hmap : ∀ a b v, Reads g (fun j w => w = [c + g.ids.idxOf j]) b a v ↔
        ∃ r, Reads g (fun i w => w = [i]) b a r ∧ v = r.map (fun j => c + g.ids.idxOf j) := by
      intro a b v
      apply reads_map
      intro i w
      constructor
      · rintro rfl; exact ⟨[i], rfl, rfl⟩
      · rintro ⟨_, rfl, rfl⟩; rfl
    constructor
    · rintro ⟨v, v', ⟨a, b, ha, hb, hv⟩, hv', rfl⟩
      obtain ⟨r, hr, rfl⟩ := (hmap a b v).1 hv
      exact ⟨g, r, v', hu, ⟨a, b, ha, hb, hr⟩, rfl, (ih _ _).1 hv'⟩
    · rintro ⟨g', q, p', hu', ⟨a, b, ha, hb, hq⟩, rfl, hp'⟩
      have hg' : g' = g := by
        have := List.inj_on_of_nodup_map hn hu' hu rfl
        exact congrArg Prod.snd this
      subst hg'
      exact ⟨_, p', ⟨a, b, ha, hb, (hmap a b _).2 ⟨q, hq, rfl⟩⟩, (ih _ _).2 hp', rfl⟩

/-- **C09.** For every inventory of well-formed unit HMMs and every transcription made of these units,
the alignment graph is built and compiled without error. A path of the alignment graph from its start to
its end visits state 0, then for every unit of the transcription in order (repetitions included) the
states of one path of a fresh copy of the HMM of that unit, and then the end state; and every such list
of states is a path. Hence the sequences of pdf ids emitted along the paths are exactly the
concatenations of one sequence accepted by each unit of the transcription, in order. -/
theorem C09_paths (units : List (String × Graph F)) (hn : (units.map Prod.fst).Nodup)
    (seq : List String) (h : ∀ u ∈ seq, ∃ hmm, (u, hmm) ∈ units ∧ WellFormed hmm) :
    ∃ g c, aliGraph seq units = .ok g ∧ createGraphFromSeq seq units = .ok c
    ∧ (∀ p, Visits g p ↔ ∃ q, p = 0 :: q ++ [seq.length + 1] ∧ Segments units (seq.length + 2) seq q)
    ∧ (∀ w, Accepts g w ↔ ∃ ws, List.Forall₂ (fun u v => ∃ hmm, (u, hmm) ∈ units ∧ Accepts hmm v) seq ws
        ∧ w = ws.flatten) := by
  obtain ⟨subs, hs⟩ := exists_subs units hn seq h
  obtain ⟨g, h1, h2, h3, h4, h5, h6, h7, h8, -⟩ := ali_replaced units seq subs hs (fun i w => w = [i])
  obtain ⟨n1, n2, n3, n4⟩ := normalize_lang g
  have hali : aliGraph seq units = .ok g.normalize.1 := by
    simp only [aliGraph, h1]
    generalize g.normalize = r at *
    obtain ⟨g', e⟩ := r
    dsimp only at h2
    subst h2
    rfl
  have hclosed : Closed g.normalize.1 := by
    intro a ha
    have hid : g.normalize.1.ids = g.ids := by unfold Graph.ids; rw [n2]
    rw [hid]
    have : a.key ∈ g.keys := n1 ▸ List.mem_map.2 ⟨a, ha, rfl⟩
    obtain ⟨b, hb, hbk⟩ := List.mem_map.1 this
    have := h4 b hb
    rwa [show b.start = a.start from congrArg Prod.fst hbk,
      show b.stop = a.stop from congrArg Prod.snd hbk] at this
  obtain ⟨c, -, -, -, hc, -⟩ := compile_ok g.normalize.1 hclosed
  refine ⟨g.normalize.1, c, hali, ?_, ?_, ?_⟩
  · simp only [createGraphFromSeq, hali]
    exact hc
  · intro p
    have hv : Visits g.normalize.1 p ↔ Reads g (fun i w => w = [i]) (seq.length + 1) 0 p := by
      unfold Visits
      rw [n3, n4, h5, h6]
      constructor
      · rintro ⟨s, e, hs, he, hr⟩
        cases hs; cases he
        exact (reads_keys _ _ _ n1 _ _ _).1 hr
      · intro hr
        exact ⟨0, _, rfl, rfl, (reads_keys _ _ _ n1 _ _ _).2 hr⟩
    rw [hv, h8]
    have hseg := segWords_segments units hn seq subs (hs.imp fun _ _ h => h.1) (seq.length + 2)
    constructor
    · rintro ⟨w0, u, wE, rfl, hu, rfl, rfl⟩
      exact ⟨u, by simp, (hseg u).1 hu⟩
    · rintro ⟨q, rfl, hq⟩
      exact ⟨[0], q, [seq.length + 1], rfl, (hseg q).2 hq, rfl, by simp⟩
  · intro w
    have hem : emitLab g.normalize.1 = emitLab g := by
      funext i w; unfold emitLab; rw [n2]
    have hv : Accepts g.normalize.1 w ↔ Reads g (emitLab g) (seq.length + 1) 0 w := by
      unfold Accepts
      rw [n3, n4, h5, h6, hem]
      constructor
      · rintro ⟨s, e, hs, he, hr⟩
        cases hs; cases he
        exact (reads_keys _ _ _ n1 _ _ _).1 hr
      · intro hr
        exact ⟨0, _, rfl, rfl, (reads_keys _ _ _ n1 _ _ _).2 hr⟩
    rw [hv, h7]
    have key : ∀ ws, List.Forall₂ (fun g w => Accepts g w) subs ws ↔
        List.Forall₂ (fun u v => ∃ hmm, (u, hmm) ∈ units ∧ Accepts hmm v) seq ws := by
      intro ws
      clear * - hs hn
      induction hs generalizing ws with
      | nil => constructor <;> (intro h; cases h; exact .nil)
      | @cons u g seq subs hu _ ih =>
        constructor
        · intro h
          cases h with
          | cons h h' => exact .cons ⟨g, hu.1, h⟩ ((ih _).1 h')
        · intro h
          cases h with
          | cons h h' =>
            obtain ⟨g', hg', h⟩ := h
            have := congrArg Prod.snd (List.inj_on_of_nodup_map hn hg' hu.1 rfl)
            dsimp only at this
            subst this
            exact .cons h ((ih _).2 h')
    constructor
    · rintro ⟨ws, hws, rfl⟩; exact ⟨ws, (key ws).1 hws, rfl⟩
    · rintro ⟨ws, hws, rfl⟩; exact ⟨ws, (key ws).2 hws, rfl⟩

/-- **C09.** A unit without HMM is a `KeyError` (no graph is produced). -/
theorem C09_unknown_unit (units : List (String × Graph F)) (hn : (units.map Prod.fst).Nodup)
    (known rest : List String) (u : String) (h : ∀ v ∈ known, ∃ hmm, (v, hmm) ∈ units ∧ WellFormed hmm)
    (hu : u ∉ units.map Prod.fst) :
    createGraphFromSeq (known ++ u :: rest) units = .error .keyError := by
  obtain ⟨subs, hs⟩ := exists_subs units hn known h
  set n := (known ++ u :: rest).length with hnl
  have hnl' : n = known.length + (rest.length + 1) := by rw [hnl]; simp
  obtain ⟨i1, i2, i3, i4, i5, i6⟩ := linearGraph_eq (F := F) n
  obtain ⟨j1, j2, j3, j4⟩ := linearGraph_good (F := F) n
  have hlen : known.length = subs.length := hs.length_eq
  simp only [createGraphFromSeq, aliGraph]
  rw [← hnl]
  have hz : (linearGraph n : Graph F × List ℕ).2.zip (known ++ u :: rest)
      = (List.range' 1 known.length).zip known ++ (1 + known.length, u) ::
        (List.range' (1 + known.length + 1) rest.length).zip rest := by
    rw [i1, hnl', ← List.range'_append (s := 1) (m := known.length), List.range'_succ, List.zip_append (by simp)]
    simp
  generalize (linearGraph n : Graph F × List ℕ) = L at *
  obtain ⟨g0, sts⟩ := L
  dsimp only at *
  rw [hz]
  have hf2 : List.Forall₂ (fun (p : ℕ × String) g => dictGet units p.2 = .ok g)
      ((List.range' 1 known.length).zip known) subs := by
    have key : ∀ (k : ℕ) (seq : List String) (subs : List (Graph F)),
        List.Forall₂ (fun u g => (u, g) ∈ units ∧ WellFormed g ∧ dictGet units u = .ok g) seq subs →
        List.Forall₂ (fun (p : ℕ × String) g => dictGet units p.2 = .ok g)
          ((List.range' k seq.length).zip seq) subs := by
      intro k seq subs h
      induction h generalizing k with
      | nil => exact .nil
      | cons h _ ih => exact .cons h.2.2 (ih (k + 1))
    exact key 1 known subs hs
  have hw : ∀ g ∈ subs, WellFormed g := by
    clear * - hs
    induction hs with
    | nil => simp
    | cons h _ ih =>
      intro g hg
      rcases List.mem_cons.1 hg with rfl | hg
      · exact h.2.1
      · exact ih g hg
  rw [replaceSeq_keyError units _ _ subs hf2 g0 ?_ _ u hu]
  have hfst : ((List.range' 1 known.length).zip known).map Prod.fst = List.range' 1 known.length := by
    rw [List.map_fst_zip]; simp
  rw [hfst]
  set l := (List.range' 1 known.length).zip subs with hl
  have hlf : l.map Prod.fst = List.range' 1 known.length := by
    rw [hl, List.map_fst_zip]; simp [hlen]
  have hmem : ∀ i, i ∈ l.map Prod.fst ↔ 1 ≤ i ∧ i < 1 + known.length := by
    intro i; rw [hlf, List.mem_range'_1]
  refine (replaceList_reads l (n + 2) g0 (by omega) (by rw [hlf]; exact List.nodup_range') ?_ j1 j2
    (fun _ (_ : List ℕ) => True) (n + 1) 0 (by rw [hmem]; omega) (by omega) (by rw [hmem]; omega)
    (by omega)).1
  intro p hp
  have h1 := (hmem p.1).1 (List.mem_map.2 ⟨p, hp, rfl⟩)
  refine ⟨by omega, ⟨j1, j2, ?_, ?_⟩, wellFormed_unit _ (hw _ (List.of_mem_zip hp).2)⟩
  · rw [j3]; exact List.mem_range.2 (by omega)
  · rintro x hx ⟨h1, h2⟩
    exact j4 x hx (h1.trans h2.symm)

/-! Example: two units, the transcription `a b b`. -/

/-- A unit with two emitting states with self-loops. -/
def aliUnit (p : ℕ) : Graph ℚ :=
  ⟨4, [(0, none), (1, some p), (2, some (p + 1)), (3, none)],
   [⟨0, 1, 1⟩, ⟨1, 1, 1/2⟩, ⟨1, 2, 1/2⟩, ⟨2, 2, 1/2⟩, ⟨2, 3, 1/2⟩], some 0, some 3⟩

theorem aliUnit_wf (p : ℕ) : WellFormed (aliUnit p) := by
  refine ⟨?_, ?_, ?_, ?_, ?_, ⟨0, rfl, ?_⟩, ⟨3, rfl, ?_⟩⟩ <;> simp [aliUnit] <;> norm_num

/-- A unit reads its two pdfs, the first one twice. -/
theorem aliUnit_accepts (p : ℕ) : Accepts (aliUnit p) [p, p, p + 1] := by
  refine ⟨0, 3, rfl, rfl, ?_⟩
  refine .step (⟨0, 1, 1⟩ : Arc ℚ) [] _ (by simp [aliUnit]) (Or.inl ⟨by simp [aliUnit], rfl⟩) ?_
  refine .step (⟨1, 1, 1/2⟩ : Arc ℚ) [p] _ (by simp [aliUnit]) (Or.inr ⟨p, by simp [aliUnit], rfl⟩) ?_
  refine .step (⟨1, 2, 1/2⟩ : Arc ℚ) [p] _ (by simp [aliUnit]) (Or.inr ⟨p, by simp [aliUnit], rfl⟩) ?_
  refine .step (⟨2, 3, 1/2⟩ : Arc ℚ) [p + 1] [] (by simp [aliUnit]) (Or.inr ⟨p + 1, by simp [aliUnit], rfl⟩) ?_
  exact .stop [] (Or.inl ⟨by simp [aliUnit], rfl⟩)

example : ∃ g, aliGraph ["a", "b", "b"] [("a", aliUnit 0), ("b", aliUnit 2)] = .ok g
    ∧ Accepts g [0, 0, 1, 2, 2, 3, 2, 2, 3] ∧ ¬ Accepts g [2] := by
  obtain ⟨g, c, h1, -, -, h⟩ := C09_paths [("a", aliUnit 0), ("b", aliUnit 2)] (by decide)
    ["a", "b", "b"] (by
    intro u hu
    simp only [List.mem_cons, List.not_mem_nil, or_false] at hu
    rcases hu with rfl | rfl | rfl
    · exact ⟨aliUnit 0, by simp, aliUnit_wf 0⟩
    · exact ⟨aliUnit 2, by simp, aliUnit_wf 2⟩
    · exact ⟨aliUnit 2, by simp, aliUnit_wf 2⟩)
  refine ⟨g, h1, (h _).2 ⟨[[0, 0, 1], [2, 2, 3], [2, 2, 3]], ?_, rfl⟩, ?_⟩
  · exact .cons ⟨_, by simp, aliUnit_accepts 0⟩ (.cons ⟨_, by simp, aliUnit_accepts 2⟩
      (.cons ⟨_, by simp, aliUnit_accepts 2⟩ .nil))
  · rw [h]
    rintro ⟨ws, hws, he⟩
    cases hws with
    | @cons _ v _ ws hv hws =>
      obtain ⟨hmm, hm, s, e, hs, hE, hr⟩ := hv
      have hm : hmm = aliUnit 0 := by simpa using hm
      subst hm
      cases hs; cases hE
      -- every path of the first unit starts with its first pdf
      have key : ∃ t, v = 0 :: t := by
        have h0 : ∀ x v, Reads (aliUnit 0) (emitLab (aliUnit 0)) 3 x v → (x = 0 → ∃ t, v = 0 :: t)
            ∧ (x = 1 → ∃ t, v = 0 :: t) := by
          intro x v hx
          cases hx with
          | stop v hv => exact ⟨fun h => by omega, fun h => by omega⟩
          | step a w w' ha hw hr =>
            have h1 : ∀ x v, x = 1 → Reads (aliUnit 0) (emitLab (aliUnit 0)) 3 x v → ∃ t, v = 0 :: t := by
              intro x v hx hr
              cases hr with
              | stop v hv => omega
              | step a w w' ha hw hr =>
                rcases hw with ⟨hw, rfl⟩ | ⟨p, hw, rfl⟩
                · rw [hx] at hw; simp [aliUnit] at hw
                · rw [hx] at hw
                  have : p = 0 := by simpa [aliUnit] using hw
                  exact ⟨w', by rw [this]; rfl⟩
            refine ⟨fun hx => ?_, fun hx => h1 _ _ hx (.step a w w' ha hw hr)⟩
            have hstop : a.stop = 1 := by
              simp only [aliUnit, List.mem_cons, List.not_mem_nil, or_false] at ha
              rcases ha with rfl | rfl | rfl | rfl | rfl <;> simp_all
            obtain ⟨t, rfl⟩ := h1 _ _ hstop hr
            rcases hw with ⟨hw, rfl⟩ | ⟨p, hw, rfl⟩
            · exact ⟨t, rfl⟩
            · rw [hx] at hw; simp [aliUnit] at hw
        exact (h0 0 v hr).1 rfl
      obtain ⟨t, rfl⟩ := key
      simp at he

example : createGraphFromSeq ["a", "z"] [("a", aliUnit 0)] = .error .keyError :=
  C09_unknown_unit [("a", aliUnit 0)] (by decide) ["a"] [] "z" (by
    intro u hu
    simp only [List.mem_cons, List.not_mem_nil, or_false] at hu
    subst hu
    exact ⟨aliUnit 0, by simp, aliUnit_wf 0⟩) (by decide)

end Verif.Props
