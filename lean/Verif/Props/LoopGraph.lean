import Verif.Lemmas.LoopGraph
import Verif.Lemmas.GraphDirect
import Mathlib.Algebra.Field.Rat
import Mathlib.Algebra.Order.Ring.Rat

/-!
# Properties: decoding graphs (C83)
-/

namespace Verif.Props

open Verif Verif.Spec Verif.Graph Verif.Pipeline

variable {F : Type} [Field F] [LinearOrder F] [IsStrictOrderedRing F]

omit [Field F] [LinearOrder F] [IsStrictOrderedRing F] in
theorem filter_single (l : List (Arc F)) (hn : (l.map Arc.key).Nodup) (P : Arc F → Prop)
    [DecidablePred P] (a : Arc F) (ha : a ∈ l) (hP : P a) (hu : ∀ b ∈ l, P b → b = a) :
    l.filter (fun b => P b) = [a] := by
  induction l with
  | nil => cases ha
  | cons x l ih =>
    rw [List.map_cons, List.nodup_cons] at hn
    by_cases hx : P x
    · have hxa := hu x List.mem_cons_self hx
      subst hxa
      rw [List.filter_cons_of_pos (by simpa using hx)]
      congr 1
      rw [List.filter_eq_nil_iff]
      intro b hb hPb
      have := hu b (List.mem_cons_of_mem _ hb) (by simpa using hPb)
      subst this
      exact hn.1 (List.mem_map.2 ⟨_, hb, rfl⟩)
    · rw [List.filter_cons_of_neg (by simpa using hx)]
      rcases List.mem_cons.1 ha with rfl | ha
      · exact absurd hP hx
      · exact ih hn.2 ha fun b hb => hu b (List.mem_cons_of_mem _ hb)

omit [LinearOrder F] [IsStrictOrderedRing F] in
theorem findNext_single (g : Graph F) (hg : g.Inv) (a : Arc F) (ha : a ∈ g.arcs) (p : ℕ)
    (hp : (a.stop, some p) ∈ g.states) (hu : ∀ b ∈ g.arcs, b.start = a.start → b = a) :
    g.findNext (some a.start) 1 = .ok [(a.stop, 1 * a.weight)] ∧ g.pdfOf a.stop = some (some p) := by
  have hpdf : g.pdfOf a.stop = some (some p) := lookup_of_mem _ _ _ hg.ids_nodup hp
  have hf : g.arcsFrom (some a.start) = [a] := by
    have := filter_single g.arcs hg.keys_nodup (fun b => b.start = a.start) a ha rfl hu
    simpa [arcsFrom] using this
  refine ⟨?_, hpdf⟩
  unfold findNext
  rw [hf]
  simp only [List.map_cons, List.map_nil, List.reverse_cons, List.reverse_nil, List.nil_append]
  rw [nextLoop_emit g a 1 [] _ p hpdf, nextLoop_nil]
  rfl

omit [LinearOrder F] [IsStrictOrderedRing F] in
theorem entry_exit_ok (g : Graph F) (hg : g.Inv) (h1 : SingleEntry g) (h2 : SingleExit g) :
    (∃ p, firstPdf g = .ok p) ∧ ∃ p, lastPdf g = .ok p := by
  constructor
  · obtain ⟨a, ha, hs, ⟨p, hp⟩, hu⟩ := h1
    obtain ⟨e1, e2⟩ := findNext_single g hg a ha p hp hu
    refine ⟨some p, ?_⟩
    unfold firstPdf
    rw [hs, e1]
    simp only [e2]
  · obtain ⟨a, ha, hs, ⟨p, hp⟩, hu⟩ := h2
    have hr : (⟨a.stop, a.start, a.weight⟩ : Arc F) ∈ g.reversed.arcs := List.mem_map.2 ⟨a, ha, rfl⟩
    obtain ⟨e1, e2⟩ := findNext_single g.reversed (reversed_inv g hg) ⟨a.stop, a.start, a.weight⟩ hr p hp (by
      intro b hb hbs
      obtain ⟨c, hc, rfl⟩ := List.mem_map.1 hb
      dsimp only at hbs
      rw [hu c hc hbs])
    refine ⟨some p, ?_⟩
    unfold lastPdf findPrevious
    dsimp only at e1 e2
    rw [hs, e1]
    simp only
    rw [show g.pdfOf a.start = some (some p) from e2]

omit [LinearOrder F] [IsStrictOrderedRing F] in
theorem entryExit_ok (hmms : List (String × Graph F))
    (h : ∀ p ∈ hmms, (∃ q, firstPdf p.2 = .ok q) ∧ ∃ q, lastPdf p.2 = .ok q) (st) :
    ∃ r, entryExit hmms st = .ok r := by
  induction hmms generalizing st with
  | nil => exact ⟨st, rfl⟩
  | cons p hmms ih =>
    obtain ⟨u, g⟩ := p
    obtain ⟨⟨q1, h1⟩, ⟨q2, h2⟩⟩ := h (u, g) List.mem_cons_self
    dsimp only at h1 h2
    simp only [entryExit, h1, h2]
    exact ih (fun p hp => h p (List.mem_cons_of_mem _ hp)) _

/-- The decoding graph before its normalisation. -/
theorem decode_built (units : List (String × String)) (group : Option String)
    (hmms : List (String × Graph F)) (hn : (units.map Prod.fst).Nodup)
    (hsp : ∀ u ∈ units, u.1 ∉ ["\\<s\\>", "\\</s\\>", "#1"])
    (hperm : (hmms.map Prod.fst).Perm (units.map Prod.fst))
    (hw : ∀ p ∈ hmms, WellFormed p.2 ∧ SingleEntry p.2 ∧ SingleExit p.2) :
    ∃ loop g entry exit, mkphoneloopgraph units group = .ok loop
      ∧ mkdecodegraph loop hmms = .ok (g.normalize.1, entry, exit)
      ∧ entryExit hmms ([], []) = .ok (entry, exit)
      ∧ g.Inv ∧ Closed g ∧ g.normalize.2 = none ∧ (∀ a ∈ g.arcs, 0 < a.weight)
      ∧ g.startState = some 0 ∧ g.endState = some 1 ∧ Silent g 0
      ∧ ((∀ p ∈ hmms, Ends p.2) → Funnel g [] 1)
      ∧ (∀ i q, (i, some q) ∈ g.states → ∃ p ∈ hmms, ∃ k, (k, some q) ∈ p.2.states)
      ∧ (g.pdfMapping = hmms.flatMap fun p => p.2.pdfMapping)
      ∧ ∀ w, Reads g (emitLab g) 1 0 w ↔ ∃ us ws, LoopSeq units group us
        ∧ List.Forall₂ (fun u v => ∃ hmm, (u, hmm) ∈ hmms ∧ Accepts hmm v) us ws ∧ w = ws.flatten := by
  obtain ⟨g0, h1, h2, h3, h4, h5, h6, h7, h8, h9, h10⟩ := mkphoneloopgraph_eq (F := F) units group hn hsp
  set names := units.map Prod.fst with hnames
  have hlen : names.length = units.length := by simp [hnames]
  have hnd : (hmms.map Prod.fst).Nodup := hperm.nodup_iff.2 hn
  have hid : g0.ids = List.range (units.length + 3) := by
    unfold Graph.ids; rw [h7, List.map_map]; exact List.map_id _
  -- the states of the units
  have hp2s : ([(0, "\\<s\\>"), (1, "\\</s\\>"), (2, "#1")] ++ (List.range' 3 units.length).zip names).foldl
      (fun d (p : ℕ × String) => dictSet d p.2 p.1) ([] : List (String × ℕ))
      = [("\\<s\\>", 0), ("\\</s\\>", 1), ("#1", 2)] ++ names.zip (List.range' 3 units.length) := by
    rw [foldl_dictSet_new Prod.snd Prod.fst]
    · rw [List.nil_append, List.map_append]
      congr 1
      rw [← List.zip_swap, List.map_map]
      exact List.map_id _
    · rw [List.map_append, List.map_snd_zip (by simp [hlen]), List.nodup_append]
      refine ⟨by decide, hn, ?_⟩
      rintro a ha b hb rfl
      obtain ⟨u, hu, rfl⟩ := List.mem_map.1 hb
      exact hsp u hu ha
    · simp
  have hkeys : (([("\\<s\\>", 0), ("\\</s\\>", 1), ("#1", 2)] ++
      names.zip (List.range' 3 units.length)).map Prod.fst).Nodup := by
    rw [List.map_append, List.map_fst_zip (by simp [hlen]), List.nodup_append]
    refine ⟨by decide, hn, ?_⟩
    rintro a ha b hb rfl
    obtain ⟨u, hu, rfl⟩ := List.mem_map.1 hb
    exact hsp u hu ha
  have hst : ∀ u ∈ names, dictGet ([("\\<s\\>", 0), ("\\</s\\>", 1), ("#1", 2)] ++
      names.zip (List.range' 3 units.length)) u = .ok (unitState names u) := by
    intro u hu
    apply dictGet_of_mem _ _ _ hkeys
    rw [List.mem_append]
    right
    have hi := List.idxOf_lt_length_of_mem hu
    have : (names.zip (List.range' 3 units.length))[names.idxOf u]'(by
        rw [List.length_zip, List.length_range']; omega) = (u, unitState names u) := by
      rw [List.getElem_zip]
      refine Prod.ext (List.getElem_idxOf _) ?_
      simp [unitState]
    rw [← this]
    exact List.getElem_mem _
  set l := hmms.map fun p => (unitState names p.1, p.2) with hl
  have hmemn : ∀ p ∈ hmms, p.1 ∈ names := fun p hp =>
    hperm.mem_iff.1 (List.mem_map.2 ⟨p, hp, rfl⟩)
  have hlf : l.map Prod.fst = (hmms.map Prod.fst).map (unitState names) := by
    rw [hl, List.map_map, List.map_map]; rfl
  have hlnd : (l.map Prod.fst).Nodup := by
    rw [hlf]
    refine List.Nodup.map_on ?_ hnd
    intro x hx y _ hxy
    exact unitState_inj names x y (hperm.mem_iff.1 hx) hxy
  have hul : ∀ u ∈ names, unitState names u < units.length + 3 := by
    intro u hu
    have := List.idxOf_lt_length_of_mem hu
    unfold unitState; omega
  have hge : ∀ u, 3 ≤ unitState names u := fun u => Nat.le_add_right _ _
  have hnoloop : ∀ x ∈ g0.arcs, x.start ≠ x.stop := by
    intro x hx he
    have hk : x.key ∈ g0.keys := List.mem_map.2 ⟨x, hx, rfl⟩
    rw [h10] at hk
    have hs : x.start = x.key.1 := rfl
    have hE : x.stop = x.key.2 := rfl
    rw [hs, hE] at he
    rcases hk with hk | ⟨u, _, hk | hk⟩
    · cases group with
      | none =>
        rcases hk with hk | hk <;> rw [hk] at he <;> simp at he
      | some G =>
        rcases hk with ⟨u, _, hk⟩ | ⟨u, _, hk⟩ <;> rw [hk] at he <;> have := hge u <;>
          dsimp only at he <;> omega
    · rw [hk] at he; have := hge u; dsimp only at he; omega
    · rw [hk] at he; have := hge u; dsimp only at he; omega
  have hlp : ∀ p ∈ l, p.1 < units.length + 3 ∧ Replaceable g0 p.1 ∧ ∃ a b, UnitOK p.2 a b := by
    intro p hp
    obtain ⟨q, hq, rfl⟩ := List.mem_map.1 hp
    have := hul q.1 (hmemn q hq)
    refine ⟨this, ⟨h2, h3, ?_, ?_⟩, wellFormed_unit _ (hw q hq).1⟩
    · rw [hid]; exact List.mem_range.2 this
    · rintro x hx ⟨ha, hb⟩
      exact hnoloop x hx (ha.trans hb.symm)
  have hlow : ∀ i < 3, i ∉ l.map Prod.fst := by
    intro i hi hm
    rw [hlf] at hm
    obtain ⟨u, _, rfl⟩ := List.mem_map.1 hm
    have := hge u; omega
  obtain ⟨r1, r2, r3, r4, r5, r6, r7, -⟩ := replaceList_reads l (units.length + 3) g0 (by omega) hlnd hlp
    h2 h3 (fun _ (_ : List ℕ) => True) 1 0 (hlow 1 (by omega)) (by omega) (hlow 0 (by omega)) (by omega)
  have r9 := replaceList_lang l (units.length + 3) g0 (by omega) hlnd hlp h2 h3 1 0 (hlow 1 (by omega))
    (by omega) (hlow 0 (by omega)) (by omega)
  have hall := replaceAll_eq ([("\\<s\\>", 0), ("\\</s\\>", 1), ("#1", 2)] ++
      names.zip (List.range' 3 units.length)) (unitState names) hmms
      (fun p hp => hst p.1 (hmemn p hp)) g0
  rw [← hl] at hall
  have hcl := r7 h4
  have hpos : ∀ a ∈ (replaceList l g0).1.arcs, 0 < a.weight := by
    intro x hx
    obtain ⟨y, hy, hxy⟩ := r6 x hx
    rw [hxy]
    rcases hy with hy | ⟨p, hp, hy⟩
    · exact h5 y hy
    · obtain ⟨q, hq, rfl⟩ := List.mem_map.1 hp
      exact (hw q hq).1.weights_pos y hy
  have hsil0 : ∀ i < units.length + 3, (i, none) ∈ g0.states := by
    intro i hi
    rw [h7]
    exact List.mem_map.2 ⟨i, List.mem_range.2 hi, rfl⟩
  have hne0 : ∀ i, ¬ Emits g0 i := by
    rintro i ⟨p, hp⟩
    rw [h7] at hp
    obtain ⟨_, _, h⟩ := List.mem_map.1 hp
    cases h
  have hsil1 : Silent (replaceList l g0).1 0 := replaceList_state l (units.length + 3) g0 (by omega) hlnd hlp 0 none
    (by omega) (hlow 0 (by omega)) (hsil0 0 (by omega))
  have hfun : (∀ p ∈ hmms, Ends p.2) → Funnel (replaceList l g0).1 [] 1 := by
    intro hends
    refine funnel_list l (units.length + 3) 1 g0 (by omega) hlnd ?_ ?_
    · intro p hp
      obtain ⟨q1, q2, q3⟩ := hlp p hp
      obtain ⟨q, hq, rfl⟩ := List.mem_map.1 hp
      exact ⟨q1, q2, q3, hends q hq⟩
    · have hkey : ∀ x ∈ g0.arcs, x.start ≠ 1 ∧ (3 ≤ x.start → x.stop = 1 ∨ x.stop = 2) := by
        intro x hx
        have hk : x.key ∈ g0.keys := List.mem_map.2 ⟨x, hx, rfl⟩
        rw [h10] at hk
        have hs : x.start = x.key.1 := rfl
        have hE : x.stop = x.key.2 := rfl
        rw [hs, hE]
        rcases hk with hk | ⟨u, _, hk | hk⟩
        · cases group with
          | none => rcases hk with hk | hk <;> rw [hk] <;> exact ⟨by decide, by decide⟩
          | some G =>
            rcases hk with ⟨u, _, hk⟩ | ⟨u, _, hk⟩ <;> rw [hk] <;> have := hge u <;>
              refine ⟨by dsimp only; omega, fun h => ?_⟩ <;> dsimp only at h ⊢ <;> omega
        · rw [hk]
          have := hge u
          refine ⟨by dsimp only; omega, fun h => ?_⟩
          dsimp only at h ⊢
          omega
        · rw [hk]
          have := hge u
          refine ⟨by dsimp only; omega, fun h => ?_⟩
          dsimp only at h ⊢
          omega
      refine ⟨hsil0 _ (by omega), fun a ha => (hkey a ha).1, hlow 1 (by omega), ?_, ?_, ?_⟩
      · intro a _ he
        exact absurd he (hne0 _)
      · intro o ho b hb c hc e1 e2 n1 n2
        rw [hlf] at ho
        obtain ⟨u, _, rfl⟩ := List.mem_map.1 ho
        have hg := hge u
        have t1 : b.stop = 2 := ((hkey b hb).2 (by omega)).resolve_left n1
        have t2 : c.stop = 2 := ((hkey c hc).2 (by omega)).resolve_left n2
        exact List.inj_on_of_nodup_map h2.keys_nodup hb hc (by unfold Arc.key; rw [e1, e2, t1, t2])
      · intro a _ he
        exact absurd he (hne0 _)
  have hpdf : ∀ i q, (i, some q) ∈ (replaceList l g0).1.states → ∃ p ∈ hmms, ∃ k, (k, some q) ∈ p.2.states := by
    intro i q hq
    rcases replaceList_pdf l g0 r1 i q hq with ⟨j, hj⟩ | ⟨x, hx, k, hk⟩
    · exact absurd ⟨q, hj⟩ (hne0 j)
    · obtain ⟨p, hp, rfl⟩ := List.mem_map.1 hx
      exact ⟨p, hp, k, hk⟩
  have hpdfs : (replaceList l g0).1.pdfMapping = hmms.flatMap fun p => p.2.pdfMapping := by
    rw [replaceList_pdfs l (units.length + 3) g0 (by omega) (fun p hp => (hlp p hp).1)
      (fun i q hi => absurd ⟨q, hi⟩ (hne0 i)) r1]
    have : g0.pdfMapping = [] := by
      rw [List.eq_nil_iff_forall_not_mem]
      intro q hq
      obtain ⟨⟨i, o⟩, hi, ho⟩ := List.mem_filterMap.1 hq
      dsimp only at ho
      subst ho
      exact hne0 i ⟨q, hi⟩
    rw [this, List.nil_append, hl, List.flatMap_map]
  generalize replaceList l g0 = R at *
  obtain ⟨g1, e1⟩ := R
  dsimp only at *
  subst r1
  have hnorm := normalize_pos g1 r2 hpos
  obtain ⟨ee, hee⟩ := entryExit_ok hmms (fun p hp => by
    obtain ⟨a, b, hu⟩ := wellFormed_unit _ (hw p hp).1
    exact entry_exit_ok p.2 hu.inv (hw p hp).2.1 (hw p hp).2.2) ([], [])
  refine ⟨_, g1, ee.1, ee.2, h1, ?_, hee, r2, hcl, hnorm, hpos, r4.trans h8, r5.trans h9, hsil1, hfun, hpdf, hpdfs, ?_⟩
  · unfold mkdecodegraph
    dsimp only
    rw [hp2s, hall]
    dsimp only
    generalize g1.normalize = q at *
    obtain ⟨g', e⟩ := q
    dsimp only at hnorm
    subst hnorm
    dsimp only
    rw [hee]
  · intro w
    rw [r9]
    have hsil : ∀ i < 3, ∀ w, langLab l (emitLab g0) i w ↔ w = [] := by
      intro i hi w
      rw [langLab_other l _ i w (hlow i hi)]
      unfold emitLab
      rw [h7]
      constructor
      · rintro (h | ⟨p, h, _⟩)
        · exact h.2
        · obtain ⟨_, _, h⟩ := List.mem_map.1 h
          cases h
      · intro h
        exact Or.inl ⟨List.mem_map.2 ⟨i, List.mem_range.2 (by omega), rfl⟩, h⟩
    have hL : ∀ u ∈ names, ∀ w, langLab l (emitLab g0) (unitState names u) w ↔
        ∃ hmm, (u, hmm) ∈ hmms ∧ Accepts hmm w := by
      intro u hu w
      obtain ⟨⟨u', hmm⟩, hp, rfl⟩ := List.mem_map.1 (hperm.mem_iff.2 hu)
      have := langLab_mem l hlnd (emitLab g0) (unitState names u', hmm)
        (List.mem_map.2 ⟨(u', hmm), hp, rfl⟩) w
      dsimp only at this ⊢
      rw [this]
      constructor
      · intro h; exact ⟨hmm, hp, h⟩
      · rintro ⟨hmm', hp', h⟩
        have := congrArg Prod.snd (List.inj_on_of_nodup_map hnd hp' hp rfl)
        dsimp only at this
        rw [← this]; exact h
    have hinj : ∀ u ∈ names, ∀ v, unitState names u = unitState names v → u = v :=
      fun u hu v h => unitState_inj names u v hu h
    cases group with
    | none =>
      rw [loop_reads_any g0 names (unitState names) _ _ hge hinj h10 hsil hL]
      constructor
      · rintro ⟨us, ws, a1, a2, a3⟩
        exact ⟨us, ws, ⟨a1, fun G hG => by cases hG⟩, a2, a3⟩
      · rintro ⟨us, ws, a1, a2, a3⟩
        exact ⟨us, ws, a1.1, a2, a3⟩
    | some G =>
      rw [loop_reads_group g0 names (fun u => (u, G) ∈ units) (unitState names) _ _ hge
        (fun u hu => List.mem_map.2 ⟨_, hu, rfl⟩) hinj h10 hsil hL]
      constructor
      · rintro ⟨us, ws, a1, a2, a3, a4, a5⟩
        exact ⟨us, ws, ⟨a1, fun G' hG => by cases hG; exact ⟨a2, a3⟩⟩, a4, a5⟩
      · rintro ⟨us, ws, a1, a2, a3⟩
        exact ⟨us, ws, a1.1, (a1.2 G rfl).1, (a1.2 G rfl).2, a2, a3⟩

/-- **C83.** For every list of units with distinct names (none of them one of the three special symbols)
and every inventory of well-formed HMMs with a single entry and a single exit for exactly these units (in
any order), the phone-loop graph and the decoding graph are built without error, and the sequences of pdf
ids emitted along the paths of the decoding graph are exactly the concatenations of sequences accepted by
the HMMs of a sequence of units: any sequence of units, or with a start/end group any non-empty sequence
whose first and last units belong to the group. -/
theorem C83_decoding_language (units : List (String × String)) (group : Option String)
    (hmms : List (String × Graph F)) (hn : (units.map Prod.fst).Nodup)
    (hsp : ∀ u ∈ units, u.1 ∉ ["\\<s\\>", "\\</s\\>", "#1"])
    (hperm : (hmms.map Prod.fst).Perm (units.map Prod.fst))
    (hw : ∀ p ∈ hmms, WellFormed p.2 ∧ SingleEntry p.2 ∧ SingleExit p.2) :
    ∃ loop g entry exit, mkphoneloopgraph units group = .ok loop
      ∧ mkdecodegraph loop hmms = .ok (g, entry, exit)
      ∧ (∃ c, g.compile = .ok c)
      ∧ ∀ w, Accepts g w ↔ ∃ us ws, LoopSeq units group us
        ∧ List.Forall₂ (fun u v => ∃ hmm, (u, hmm) ∈ hmms ∧ Accepts hmm v) us ws ∧ w = ws.flatten := by
  obtain ⟨loop, g1, entry, exit, h1, h2, -, h3, h4, -, -, h5, h6, -, -, -, -, h7⟩ :=
    decode_built units group hmms hn hsp hperm hw
  obtain ⟨n1, n2, n3, n4⟩ := normalize_lang g1
  refine ⟨loop, g1.normalize.1, entry, exit, h1, h2, ?_, ?_⟩
  · have hclosed : Closed g1.normalize.1 := by
      intro a ha
      have hid : g1.normalize.1.ids = g1.ids := by unfold Graph.ids; rw [n2]
      rw [hid]
      have : a.key ∈ g1.keys := n1 ▸ List.mem_map.2 ⟨a, ha, rfl⟩
      obtain ⟨b, hb, hbk⟩ := List.mem_map.1 this
      have := h4 b hb
      rwa [show b.start = a.start from congrArg Prod.fst hbk,
        show b.stop = a.stop from congrArg Prod.snd hbk] at this
    obtain ⟨c, -, -, -, hc, -⟩ := compile_ok g1.normalize.1 hclosed
    exact ⟨c, hc⟩
  · intro w
    have hem : emitLab g1.normalize.1 = emitLab g1 := by
      funext i w; unfold emitLab; rw [n2]
    have hv : Accepts g1.normalize.1 w ↔ Reads g1 (emitLab g1) 1 0 w := by
      unfold Accepts
      rw [n3, n4, h5, h6, hem]
      constructor
      · rintro ⟨s, e, hs, he, hr⟩
        cases hs; cases he
        exact (reads_keys _ _ _ n1 _ _ _).1 hr
      · intro hr
        exact ⟨0, _, rfl, rfl, (reads_keys _ _ _ n1 _ _ _).2 hr⟩
    rw [hv, h7]

end Verif.Props
