import Verif.Lemmas.DecodeCmd
import Verif.Props.CompiledLang

/-!
# Properties: decoding utterances (C153, C154)
-/

namespace Verif.DecodeCmd

open Verif Verif.Spec Verif.Graph Verif.Props Verif.Pipeline Verif.Decode

theorem inventory_good {F : Type} [Field F] [LinearOrder F] [IsStrictOrderedRing F] (hmms : List (String × Graph F)) (n : ℕ)
    (h : Inventory hmms n) (p : String × Graph F) (hp : p ∈ hmms) :
    WellFormed p.2 ∧ SingleEntry p.2 ∧ SingleExit p.2 ∧ Ends p.2 := by
  obtain ⟨topo, m, f, he, h1, h2⟩ := h.units p hp
  rw [he]
  exact ⟨(unitHmm_good _ _ _ h1).1, (unitHmm_good _ _ _ h1).2.1, (unitHmm_good _ _ _ h1).2.2,
    unitHmm_ends _ _ _ h1 h2.ends⟩

/-- What the command prints for the words of a sequence of units. -/
theorem spoken_printed {F : Type} [Field F] [LT F] (hmms : List (String × Graph F)) (n : ℕ) (h : Inventory hmms n) :
    ∃ entry exit, entryExit hmms ([], []) = .ok (entry, exit)
      ∧ (∀ p ∈ hmms, ∀ i q, (i, some q) ∈ p.2.states → q < n)
      ∧ ∀ us ws, Spoken hmms us ws → (us ≠ [] → ws.flatten ≠ [])
        ∧ (us ≠ [] → state2phone (starts entry) true ws.flatten = .ok (List.zipWith (fun u v => v.map fun _ => u) us ws).flatten
          ∧ (∃ out, state2phone (starts entry) false ws.flatten = .ok out ∧ Merged us out)
          ∧ (us.IsChain (fun u v => u = v → dictGet entry u ≠ dictGet exit u) →
              state2phone (starts entry) false ws.flatten = .ok us)) := by
  obtain ⟨entry, exit, h1, h2, h3, h4⟩ := inventory hmms n h
  refine ⟨entry, exit, h1, h3, fun us ws hsp => ?_⟩
  obtain ⟨runs, r1, r2, r3⟩ := exists_runs _ (fun r => r.Valid (starts entry) ∧ dictGet entry r.phone = .ok (some r.start)
    ∧ ∃ x, dictGet exit r.phone = .ok (some x) ∧ r.states.getLast? = some x) (by
      intro u v huv
      obtain ⟨r, q1, q2, q3⟩ := h4 u v huv
      subst q1
      exact ⟨r, rfl, q2, q3⟩) us ws hsp
  have hfl : ws.flatten = runs.flatMap PhoneRun.states := by rw [← r2, List.flatMap_def]
  have hne : us ≠ [] → runs ≠ [] := by
    rintro hu rfl
    exact hu r1.symm
  obtain ⟨out, o1, o2, o3, o4, o5, o6⟩ := merge_runs (starts entry) h2 runs fun r hr => (r3 r hr).1
  refine ⟨fun hu => ?_, fun hu => ⟨?_, ⟨out.map PhoneRun.phone, ?_, r1 ▸ o4⟩, ?_⟩⟩
  · rw [hfl]
    cases runs with
    | nil => exact absurd rfl (hne hu)
    | cons r runs => simp [PhoneRun.states]
  · rw [hfl, ← o3, C16_per_frame _ h2 out (o6 (hne hu)) o1 o2, o5, ← r1, ← r2, List.zipWith_map, List.zipWith_self,
      List.flatMap_def]
  · rw [hfl, ← o3]
    exact C16_phones _ h2 out (o6 (hne hu)) o1 o2
  · intro hch
    rw [hfl, ← r1]
    refine C16_phones _ h2 runs (hne hu) (fun r hr => (r3 r hr).1) ?_
    rw [← r1, List.isChain_map] at hch
    refine List.IsChain.imp_of_mem_imp ?_ hch
    intro r r' hr hr' hrr hlast
    obtain ⟨v1, v2, x, v3, v4⟩ := r3 r hr
    obtain ⟨v1', v2', -⟩ := r3 r' hr'
    obtain ⟨t1, -⟩ := run_stays _ r.rest r.start r'.start v1.inside hlast (List.mem_map.2 ⟨_, v1'.enters, rfl⟩)
    have hph := List.inj_on_of_nodup_map h2 v1.enters v1'.enters t1
    refine hrr (Prod.ext_iff.1 hph).1 ?_
    rw [v2, v3]
    rw [hlast] at v4
    rw [t1]
    congr 1

theorem merged_loopSeq (units : List (String × String)) (group : Option String) (us out : List String) (h : Merged us out)
    (hl : LoopSeq units group us) : LoopSeq units group out := by
  have hmem : (∀ u ∈ out, u ∈ us) ∧ out.head? = us.head? ∧ out.getLast? = us.getLast? := by
    clear hl
    induction h with
    | nil => simp
    | keep u us out h ih =>
      refine ⟨?_, rfl, ?_⟩
      · intro v hv
        rcases List.mem_cons.1 hv with rfl | hv
        · exact List.mem_cons_self
        · exact List.mem_cons_of_mem _ (ih.1 v hv)
      · rw [List.getLast?_cons, List.getLast?_cons, ih.2.2]
    | drop u us out h ih =>
      exact ⟨fun v hv => List.mem_cons_of_mem _ (ih.1 v hv), ih.2.1, by rw [ih.2.2, List.getLast?_cons_cons]⟩
  refine ⟨fun u hu => hl.1 u (hmem.1 u hu), fun G hG => ?_⟩
  rw [hmem.2.1, hmem.2.2]
  exact hl.2 G hG

theorem logGraph_pdf (c : Compiled ℝ) (g : LGraph) (h : logGraph c = .ok g) (k) : g.pdf k ∈ c.pdfMapping := by
  unfold logGraph at h
  split at h
  · split at h
    · cases h
    · rename_i hne
      have hlen := List.length_pos_iff.2 hne
      have := Except.ok.inj h
      subst this
      dsimp only at k ⊢
      have hk : k.1 < c.pdfMapping.length := by omega
      rw [List.getD_eq_getElem?_getD, List.getElem?_eq_getElem hk]
      exact List.getElem_mem hk
  · cases h

theorem state2phone_length (st : List (String × ℕ)) (path : List ℕ) (out : List String)
    (h : state2phone st false path = .ok out) : out.length ≤ path.length := by
  have hl : ∀ (path : List ℕ) prev sym phones out, state2phoneLoop st false path prev sym phones = .ok out →
      out.length ≤ phones.length + path.length := by
    intro path
    induction path with
    | nil => intro prev sym phones out h; cases h; simp
    | cons s path ih =>
      intro prev sym phones out h
      simp only [state2phoneLoop, Bool.false_eq_true, if_false] at h
      split at h
      · split at h
        · cases h
        · have := ih _ _ _ _ h
          simp only [List.length_append, List.length_cons, List.length_nil] at this ⊢
          omega
      · have := ih _ _ _ _ h
        simp only [List.length_cons]
        omega
  cases path with
  | nil => cases h
  | cons s path =>
    simp only [state2phone] at h
    split at h
    · cases h
    · have := hl _ _ _ _ _ h
      simp only [List.length_cons, List.length_nil] at this ⊢
      omega

/-- The non-speech topology of the recipes (`recipes/timit_v2/conf/hmm/hmm.yml:10-34`). -/
def nonSpeech {F : Type} [Field F] : List (Arc F) :=
  [⟨0, 1, 1⟩, ⟨1, 1, 1/4⟩, ⟨1, 2, 1/4⟩, ⟨1, 3, 1/4⟩, ⟨1, 4, 1/4⟩, ⟨2, 2, 1/4⟩, ⟨2, 3, 1/4⟩, ⟨2, 4, 1/4⟩, ⟨2, 5, 1/4⟩,
    ⟨3, 2, 1/4⟩, ⟨3, 3, 1/4⟩, ⟨3, 4, 1/4⟩, ⟨3, 5, 1/4⟩, ⟨4, 2, 1/4⟩, ⟨4, 3, 1/4⟩, ⟨4, 4, 1/4⟩, ⟨4, 5, 1/4⟩, ⟨5, 5, 3/4⟩,
    ⟨5, 6, 1/4⟩]

end Verif.DecodeCmd

namespace Verif.Props

open Verif Verif.Spec Verif.Graph Verif.Pipeline Verif.Decode Verif.DecodeCmd

/-- **C153 (topologies).** The topologies which never go back enter their first emitting state once, and so does the
non-speech topology of the recipes, which goes back between its inner states. -/
theorem C153_topologies {F : Type} [Field F] [LinearOrder F] [IsStrictOrderedRing F] :
    (∀ (topo : List (Arc F)) (m : ℕ), ValidTopo topo m → (∀ a ∈ topo, a.start ≤ a.stop) → EntersOnce topo m)
      ∧ ValidTopo (nonSpeech (F := F)) 7 ∧ EntersOnce (nonSpeech (F := F)) 7
      ∧ ∃ a ∈ nonSpeech (F := F), a.stop < a.start := by
  refine ⟨leftRight_once, ?_, ?_, ⟨3, 2, 1/4⟩, by simp [nonSpeech], Nat.lt_succ_self 2⟩
  · refine ⟨by decide, by simp [nonSpeech], ?_, by simp [nonSpeech], by simp [nonSpeech], ?_, ?_⟩
    · intro i hi
      simp only [nonSpeech, List.mem_cons, List.not_mem_nil, or_false, exists_eq_or_imp, exists_eq_left]
      omega
    · exact ⟨⟨0, 1, 1⟩, by simp [nonSpeech], by simp [nonSpeech]⟩
    · exact ⟨⟨5, 6, 1/4⟩, by simp [nonSpeech], by simp [nonSpeech]⟩
  · have hpos : ∀ c ∈ nonSpeech (F := F), 0 < c.stop := by simp [nonSpeech]
    have h0 : ∀ c ∈ nonSpeech (F := F), c.start = 0 → c.stop = 1 := by simp [nonSpeech]
    have h1 : ∀ c ∈ nonSpeech (F := F), c.stop = 1 → c.start ≤ 1 := by simp [nonSpeech]
    refine ⟨by simp [nonSpeech], fun a ha ha0 b hb hba hr => ?_⟩
    have ha1 := h0 a ha ha0
    have hle : ∀ k, Relation.ReflTransGen (fun i j => ∃ c ∈ nonSpeech (F := F), c.start = i ∧ c.stop = j) a.stop k → 0 < k := by
      intro k hk
      induction hk with
      | refl => omega
      | tail _ hc _ =>
        obtain ⟨c, hc, rfl, rfl⟩ := hc
        exact hpos c hc
    have := hle _ hr
    have := h1 b hb (hba.trans ha1)
    omega

/-- **C153 (inventory).** When no way leads again to the first emitting state of a configured topology, what `hmm mkphones`
makes is an inventory of such units. -/
theorem C153_inventory {F : Type} [Field F] [LinearOrder F] (conf : List (String × List (Arc F)))
    (lines : List (String × String)) (hc : (conf.map Prod.fst).Nodup) (hn : (lines.map Prod.fst).Nodup)
    (ht : ∀ c ∈ conf, ∃ n, ValidTopo c.2 n ∧ EntersOnce c.2 n)
    (hg : ∀ l ∈ lines, l.2 ∈ conf.map Prod.fst) (hu : ∀ c ∈ conf, ∃ l ∈ lines, l.2 = c.1) :
    ∃ hmms n, mkphones conf lines = .ok (hmms, n) ∧ Inventory hmms n
      ∧ (hmms.map Prod.fst).Perm (lines.map Prod.fst) := by
  obtain ⟨hmms, n, h1, h2, h3, h4⟩ := C84_units_partial conf lines hc hn (fun c hc => (ht c hc).imp fun _ h => h.1) hg hu
  have hnd := h2.nodup_iff.2 hn
  refine ⟨hmms, n, h1, ⟨hnd, ?_, h4⟩, h2⟩
  intro p hp
  obtain ⟨l, hl', hlp⟩ := List.mem_map.1 (h2.mem_iff.1 (List.mem_map.2 ⟨p, hp, rfl⟩))
  obtain ⟨c, hc', hcl⟩ := List.mem_map.1 (hg l hl')
  obtain ⟨m, hm, he⟩ := ht c hc'
  obtain ⟨f, hf⟩ := h3 l hl' c.2 m (by rw [← hcl]; exact hc') hm
  have := List.inj_on_of_nodup_map hnd hp hf hlp.symm
  exact ⟨c.2, m, f, by rw [this], hm, he⟩

/-- **C153 (best path).** Whatever the features, the acoustic scale and the ties, as soon as the graph allows some path
with as many states as there are frames, `decode` returns such a path: one pdf per frame along a state sequence
which the graph allows. -/
theorem C153_path (am : Argmax) (ham : ∀ k, IsArgmax (am k)) (m : HModel) (scale : ℝ) (ig : Option LGraph)
    (x : Feats) (hp : ∀ k, (ig.getD m.graph).pdf k < m.nPdfs)
    (hf : ∃ w, Possible (ig.getD m.graph) w ∧ w.length = x.n) :
    ∃ path, decode am m scale ig x = .ok path ∧ path.length = x.n ∧ Possible (ig.getD m.graph) path := by
  obtain ⟨w, hw, hl⟩ := hf
  exact decode_possible am ham m scale ig x hp w hw hl

/-- **C153 (forced alignment).** Let `hmms` be an inventory of units and `c` the alignment graph of a non-empty transcription.
For every model of these units, all features, scales and ties: when the frames are as many as in some way of saying
the transcription, decoding with the alignment graph returns the states of such a way (every unit of the
transcription in order), the labels per frame are the units of the frames, the printed sequence is the transcription
up to units merged with their own repetition, and it is exactly the transcription when no unit which directly repeats
has a single entry-and-exit pdf. -/
theorem C153_alignment (hmms : List (String × Graph ℝ)) (n : ℕ) (h : Inventory hmms n) (seq : List String)
    (hne : seq ≠ []) (hs : ∀ u ∈ seq, u ∈ hmms.map Prod.fst) :
    ∃ entry exit c, entryExit hmms ([], []) = .ok (entry, exit) ∧ createGraphFromSeq seq hmms = .ok c
      ∧ ∀ ws0, Spoken hmms seq ws0 → ∃ g, logGraph c = .ok g
        ∧ ∀ (am : Argmax), (∀ k, IsArgmax (am k)) → ∀ m : HModel, m.nPdfs = n → m.startPdf = entry →
          ∀ (scale : ℝ) (x : Feats), x.n = ws0.flatten.length →
          ∃ ws, Spoken hmms seq ws ∧ ws.flatten.length = x.n ∧ decode am m scale (some g) x = .ok ws.flatten
            ∧ state2phone (starts m.startPdf) true ws.flatten
                = .ok (List.zipWith (fun u v => v.map fun _ => u) seq ws).flatten
            ∧ (∃ out, state2phone (starts m.startPdf) false ws.flatten = .ok out ∧ Merged seq out)
            ∧ (seq.IsChain (fun u v => u = v → dictGet entry u ≠ dictGet exit u) →
                state2phone (starts m.startPdf) false ws.flatten = .ok seq) := by
  obtain ⟨entry, exit, h1, h2, h3⟩ := spoken_printed hmms n h
  obtain ⟨c, hc, hcn, hcp, hcw⟩ := C152_alignment hmms h.names seq (by
    intro u hu
    obtain ⟨p, hp, rfl⟩ := List.mem_map.1 (hs u hu)
    have := inventory_good hmms n h p hp
    exact ⟨p.2, hp, this.1, this.2.2.2⟩)
  refine ⟨entry, exit, c, h1, hc, fun ws0 hws0 => ?_⟩
  have hw0 := (h3 seq ws0 hws0).1 hne
  have hsp0 : Spells c ws0.flatten := (hcw _ hw0).2 ⟨ws0, hws0, rfl⟩
  obtain ⟨g, hg, hgp, hgw⟩ := logGraph_possible c hcn _ hsp0
  refine ⟨g, hg, ?_⟩
  rintro am ham m hmn hms scale x hx
  obtain ⟨path, p1, p2, p3⟩ := C153_path am ham m scale (some g) x (by
    intro k
    obtain ⟨u, -, hmm, i, hu, hi⟩ := hcp _ (hgp k)
    rw [hmn]
    exact h2 _ hu i _ hi) ⟨_, (hgw _).2 hsp0, hx.symm⟩
  have hpne : path ≠ [] := by
    rintro rfl
    rw [hx] at p2
    exact hw0 (List.length_eq_zero_iff.1 p2.symm)
  obtain ⟨ws, w1, rfl⟩ := (hcw _ hpne).1 ((hgw _).1 p3)
  rw [hms]
  exact ⟨ws, w1, p2, p1, (h3 seq ws w1).2 hne⟩

/-- **C153 (free decoding).** With the graph of the phone loop over the units of an inventory: when the frames are as many as
in some way of saying an allowed sequence of units, the states decoded are those of a way of saying an allowed
sequence, and what is printed is an allowed sequence: this one up to units merged with their own repetition, exactly
this one when no unit which directly repeats has a single entry-and-exit pdf. -/
theorem C153_free (units : List (String × String)) (group : Option String) (hmms : List (String × Graph ℝ)) (n : ℕ)
    (h : Inventory hmms n) (hsp : ∀ u ∈ units, u.1 ∉ ["\\<s\\>", "\\</s\\>", "#1"])
    (hperm : (hmms.map Prod.fst).Perm (units.map Prod.fst)) :
    ∃ loop dg entry exit c, mkphoneloopgraph units group = .ok loop ∧ mkdecodegraph loop hmms = .ok (dg, entry, exit)
      ∧ dg.compile = .ok c
      ∧ ∀ us0 ws0, us0 ≠ [] → LoopSeq units group us0 → Spoken hmms us0 ws0 → ∃ g, logGraph c = .ok g
        ∧ ∀ (am : Argmax), (∀ k, IsArgmax (am k)) → ∀ m : HModel, m.graph = g → m.nPdfs = n → m.startPdf = entry →
          ∀ (scale : ℝ) (x : Feats), x.n = ws0.flatten.length →
          ∃ us ws, LoopSeq units group us ∧ Spoken hmms us ws ∧ ws.flatten.length = x.n
            ∧ decode am m scale none x = .ok ws.flatten
            ∧ state2phone (starts m.startPdf) true ws.flatten
                = .ok (List.zipWith (fun u v => v.map fun _ => u) us ws).flatten
            ∧ (∃ out, state2phone (starts m.startPdf) false ws.flatten = .ok out ∧ Merged us out
                ∧ LoopSeq units group out)
            ∧ (us.IsChain (fun u v => u = v → dictGet entry u ≠ dictGet exit u) →
                state2phone (starts m.startPdf) false ws.flatten = .ok us) := by
  obtain ⟨entry, exit, h1, h2, h3⟩ := spoken_printed hmms n h
  obtain ⟨loop, dg, entry', exit', c, d1, d2, d3, d4, hcn, hcp, -, hcw⟩ := C152_decoding units group hmms
    (hperm.nodup_iff.1 h.names) hsp hperm (inventory_good hmms n h)
  rw [h1] at d3
  obtain ⟨rfl, rfl⟩ := Prod.ext_iff.1 (Except.ok.inj d3)
  refine ⟨loop, dg, entry, exit, c, d1, d2, d4, fun us0 ws0 hne hl0 hws0 => ?_⟩
  have hw0 := (h3 us0 ws0 hws0).1 hne
  have hsp0 : Spells c ws0.flatten := (hcw _ hw0).2 ⟨us0, ws0, hl0, hws0, rfl⟩
  obtain ⟨g, hg, hgp, hgw⟩ := logGraph_possible c hcn _ hsp0
  refine ⟨g, hg, ?_⟩
  rintro am ham m rfl hmn hms scale x hx
  obtain ⟨path, p1, p2, p3⟩ := C153_path am ham m scale none x (by
    intro k
    obtain ⟨p, hp, i, hi⟩ := hcp _ (hgp k)
    rw [hmn]
    exact h2 _ hp i _ hi) ⟨_, (hgw _).2 hsp0, hx.symm⟩
  have hpne : path ≠ [] := by
    rintro rfl
    rw [hx] at p2
    exact hw0 (List.length_eq_zero_iff.1 p2.symm)
  obtain ⟨us, ws, w0, w1, rfl⟩ := (hcw _ hpne).1 ((hgw _).1 p3)
  have hune : us ≠ [] := by
    rintro rfl
    cases w1
    exact hpne rfl
  obtain ⟨v1, ⟨out, v2, v3⟩, v4⟩ := (h3 us ws w1).2 hune
  rw [hms]
  exact ⟨us, ws, w0, w1, p2, p1, v1, ⟨out, v2, v3, merged_loopSeq _ _ _ _ v3 w0⟩, v4⟩

/-- **C153 (negation).** An utterance with fewer frames than its transcription has units is aligned without any error,
and never to its transcription. -/
theorem C153_too_short (hmms : List (String × Graph ℝ)) (n : ℕ) (h : Inventory hmms n) (seq : List String)
    (hs : ∀ u ∈ seq, u ∈ hmms.map Prod.fst) (c : Compiled ℝ) (hc : createGraphFromSeq seq hmms = .ok c) (g : LGraph)
    (hg : logGraph c = .ok g) (am : Argmax) (m : HModel) (hm : m.nPdfs = n) (scale : ℝ) (x : Feats) (hx : 0 < x.n)
    (hlt : x.n < seq.length) :
    ∃ path, decode am m scale (some g) x = .ok path ∧ path.length = x.n
      ∧ state2phone (starts m.startPdf) false path ≠ .ok seq := by
  obtain ⟨entry, exit, -, h2, -⟩ := spoken_printed hmms n h
  obtain ⟨c', hc', -, hcp, -⟩ := C152_alignment hmms h.names seq (by
    intro u hu
    obtain ⟨p, hp, rfl⟩ := List.mem_map.1 (hs u hu)
    have := inventory_good hmms n h p hp
    exact ⟨p.2, hp, this.1, this.2.2.2⟩)
  rw [hc] at hc'
  have := Except.ok.inj hc'
  subst this
  obtain ⟨path, p1, p2⟩ := decode_length am m scale (some g) x (by
    intro k
    obtain ⟨u, -, hmm, i, hu, hi⟩ := hcp _ (logGraph_pdf c g hg k)
    rw [hm]
    exact h2 _ hu i _ hi) hx
  refine ⟨path, p1, p2, fun hp => ?_⟩
  have := state2phone_length _ _ _ hp
  omega

/-! ## Examples -/

/-- Two emitting states in a row, over the reals. -/
noncomputable def topoTwo : List (Arc ℝ) := [⟨0, 1, 1⟩, ⟨1, 1, 1/2⟩, ⟨1, 2, 1/2⟩, ⟨2, 2, 1/2⟩, ⟨2, 3, 1/2⟩]

/-- One emitting state, over the reals. -/
noncomputable def topoOne : List (Arc ℝ) := [⟨0, 1, 1⟩, ⟨1, 1, 1/2⟩, ⟨1, 2, 1/2⟩]

theorem topoTwo_valid : ValidTopo topoTwo 4 ∧ ∀ a ∈ topoTwo, a.start ≤ a.stop := by
  refine ⟨⟨by decide, by simp [topoTwo], ?_, by simp [topoTwo], by simp [topoTwo], ⟨⟨0, 1, 1⟩, by simp [topoTwo]⟩,
    ⟨⟨2, 3, 1/2⟩, by simp [topoTwo]⟩⟩, by simp [topoTwo]⟩
  intro i hi
  simp only [topoTwo, List.mem_cons, List.not_mem_nil, or_false, exists_eq_or_imp, exists_eq_left]
  omega

theorem topoOne_valid : ValidTopo topoOne 3 ∧ ∀ a ∈ topoOne, a.start ≤ a.stop := by
  refine ⟨⟨by decide, by simp [topoOne], ?_, by simp [topoOne], by simp [topoOne], ⟨⟨0, 1, 1⟩, by simp [topoOne]⟩,
    ⟨⟨1, 2, 1/2⟩, by simp [topoOne]⟩⟩, by simp [topoOne]⟩
  intro i hi
  simp only [topoOne, List.mem_cons, List.not_mem_nil, or_false, exists_eq_or_imp, exists_eq_left]
  omega

/-- Unit `a` has the pdfs 0 and 1, unit `b` has the pdf 2. -/
noncomputable def demoInv : List (String × Graph ℝ) := [("a", unitHmm topoTwo 4 0), ("b", unitHmm topoOne 3 2)]

theorem demoInv_ok : Inventory demoInv 3 := by
  refine ⟨by decide +kernel, ?_, by rfl⟩
  intro p hp
  simp only [demoInv, List.mem_cons, List.not_mem_nil, or_false] at hp
  rcases hp with rfl | rfl
  · exact ⟨_, _, _, rfl, topoTwo_valid.1, leftRight_once _ _ topoTwo_valid.1 topoTwo_valid.2⟩
  · exact ⟨_, _, _, rfl, topoOne_valid.1, leftRight_once _ _ topoOne_valid.1 topoOne_valid.2⟩

theorem demo_a : Accepts (unitHmm topoTwo 4 0) [0, 1] :=
  ⟨0, 3, rfl, rfl, .step ⟨0, 1, 1⟩ [] _ (by simp [unitHmm, topoTwo]) (.inl ⟨by simp [unitHmm], rfl⟩)
    (.step ⟨1, 2, 1/2⟩ [0] _ (by simp [unitHmm, topoTwo]) (.inr ⟨0, by simp [unitHmm], rfl⟩)
      (.step ⟨2, 3, 1/2⟩ [1] [] (by simp [unitHmm, topoTwo]) (.inr ⟨1, by simp [unitHmm], rfl⟩)
        (.stop [] (.inl ⟨by simp [unitHmm], rfl⟩))))⟩

theorem demo_b : Accepts (unitHmm topoOne 3 2) [2] :=
  ⟨0, 2, rfl, rfl, .step ⟨0, 1, 1⟩ [] _ (by simp [unitHmm, topoOne]) (.inl ⟨by simp [unitHmm], rfl⟩)
    (.step ⟨1, 2, 1/2⟩ [2] [] (by simp [unitHmm, topoOne]) (.inr ⟨2, by simp [unitHmm], rfl⟩)
      (.stop [] (.inl ⟨by simp [unitHmm], rfl⟩)))⟩

theorem demo_spoken : Spoken demoInv ["a", "b", "a"] [[0, 1], [2], [0, 1]] :=
  .cons ⟨_, by simp [demoInv], demo_a⟩ (.cons ⟨_, by simp [demoInv], demo_b⟩ (.cons ⟨_, by simp [demoInv], demo_a⟩ .nil))

-- five frames are aligned to `a b a` whatever their features
example : ∃ entry exit c g, entryExit demoInv ([], []) = .ok (entry, exit)
    ∧ createGraphFromSeq ["a", "b", "a"] demoInv = .ok c ∧ logGraph c = .ok g
    ∧ ∀ (am : Argmax), (∀ k, IsArgmax (am k)) → ∀ llh scale g', ∃ path,
      decode am ⟨g', 3, entry⟩ scale (some g) ⟨5, llh⟩ = .ok path
      ∧ state2phone (starts entry) false path = .ok ["a", "b", "a"] := by
  obtain ⟨entry, exit, c, h1, h2, h3⟩ := C153_alignment demoInv 3 demoInv_ok ["a", "b", "a"] (by simp) (by simp [demoInv])
  obtain ⟨g, h4, h5⟩ := h3 _ demo_spoken
  refine ⟨entry, exit, c, g, h1, h2, h4, fun am ham llh scale g' => ?_⟩
  obtain ⟨ws, -, -, h6, -, -, h7⟩ := h5 am ham ⟨g', 3, entry⟩ rfl rfl scale ⟨5, llh⟩ rfl
  exact ⟨_, h6, h7 (by simp)⟩

-- free decoding of five frames
example : ∃ loop dg entry exit c g, mkphoneloopgraph [("a", "sp"), ("b", "sp")] none = .ok loop
    ∧ mkdecodegraph loop demoInv = .ok (dg, entry, exit) ∧ dg.compile = .ok c ∧ logGraph c = .ok g
    ∧ ∀ (am : Argmax), (∀ k, IsArgmax (am k)) → ∀ llh scale, ∃ path out,
      decode am ⟨g, 3, entry⟩ scale none ⟨5, llh⟩ = .ok path ∧ path.length = 5
      ∧ state2phone (starts entry) false path = .ok out ∧ LoopSeq [("a", "sp"), ("b", "sp")] none out := by
  obtain ⟨loop, dg, entry, exit, c, h1, h2, h3, h4⟩ := C153_free [("a", "sp"), ("b", "sp")] none demoInv 3 demoInv_ok
    (by decide +kernel) (List.Perm.refl _)
  obtain ⟨g, h5, h6⟩ := h4 ["a", "b", "a"] _ (by simp) ⟨by decide, by simp⟩ demo_spoken
  refine ⟨loop, dg, entry, exit, c, g, h1, h2, h3, h5, fun am ham llh scale => ?_⟩
  obtain ⟨us, ws, -, -, h7, h8, -, ⟨out, h9, -, h10⟩, -⟩ := h6 am ham ⟨g, 3, entry⟩ rfl rfl rfl scale ⟨5, llh⟩ rfl
  exact ⟨_, out, h8, h7, h9, h10⟩

/-- Some argmax. -/
theorem exists_argmax : ∃ am : Argmax, ∀ k, IsArgmax (am k) :=
  ⟨fun k v => Classical.choose (Finite.exists_max v), fun k v i => Classical.choose_spec (Finite.exists_max v) i⟩

-- two frames for three units
example : ∃ c g, createGraphFromSeq ["a", "b", "a"] demoInv = .ok c ∧ logGraph c = .ok g
    ∧ ∀ (am : Argmax) llh scale g' entry, ∃ path,
      decode am ⟨g', 3, entry⟩ scale (some g) ⟨2, llh⟩ = .ok path
      ∧ state2phone (starts entry) false path ≠ .ok ["a", "b", "a"] := by
  obtain ⟨entry, exit, c, h1, h2, h3⟩ := C153_alignment demoInv 3 demoInv_ok ["a", "b", "a"] (by simp) (by simp [demoInv])
  obtain ⟨g, h4, -⟩ := h3 _ demo_spoken
  refine ⟨c, g, h2, h4, fun am llh scale g' entry => ?_⟩
  obtain ⟨path, p1, -, p2⟩ := C153_too_short demoInv 3 demoInv_ok ["a", "b", "a"] (by simp [demoInv]) c h2 g h4 am
    ⟨g', 3, entry⟩ rfl scale ⟨2, llh⟩ (by simp) (by simp)
  exact ⟨path, p1, p2⟩

example : ∃ hmms n, mkphones [("sp", topoTwo)] [("a", "sp"), ("b", "sp")] = .ok (hmms, n) ∧ Inventory hmms n := by
  obtain ⟨hmms, n, h1, h2, -⟩ := C153_inventory [("sp", topoTwo)] [("a", "sp"), ("b", "sp")] (by simp) (by simp)
    (by simpa using ⟨4, topoTwo_valid.1, leftRight_once _ _ topoTwo_valid.1 topoTwo_valid.2⟩) (by simp) (by simp)
  exact ⟨hmms, n, h1, h2⟩

/-- A unit which goes back to its first emitting state. -/
def topoBack : List (Arc ℚ) := [⟨0, 1, 1⟩, ⟨1, 2, 1⟩, ⟨2, 1, 1/2⟩, ⟨2, 3, 1/2⟩]

/-- **C153 (topologies): the condition is needed.** A valid topology which goes back to its first emitting state: the states
`0 1 0 1` of one occurrence of the unit are printed as two occurrences. -/
theorem C153_reentered : ValidTopo topoBack 4 ∧ (∀ a ∈ topoBack, a.start ≠ 3)
    ∧ Spoken [("a", unitHmm topoBack 4 0)] ["a"] [[0, 1, 0, 1]]
    ∧ ∃ entry exit, entryExit [("a", unitHmm topoBack 4 0)] ([], []) = .ok (entry, exit)
      ∧ state2phone (starts entry) false [0, 1, 0, 1] = .ok ["a", "a"] := by
  refine ⟨⟨by decide, by simp [topoBack], ?_, by simp [topoBack], by simp [topoBack], ?_, ?_⟩, by simp [topoBack], ?_, ?_⟩
  · intro i hi
    simp only [topoBack, List.mem_cons, List.not_mem_nil, or_false, exists_eq_or_imp, exists_eq_left]
    omega
  · exact ⟨⟨0, 1, 1⟩, by simp [topoBack], by simp [topoBack]⟩
  · exact ⟨⟨2, 3, 1/2⟩, by simp [topoBack], by simp [topoBack]⟩
  · refine .cons ⟨_, List.mem_singleton.2 rfl, ?_⟩ .nil
    exact ⟨0, 3, rfl, rfl, .step ⟨0, 1, 1⟩ [] _ (by simp [unitHmm, topoBack]) (.inl ⟨by simp [unitHmm], rfl⟩)
      (.step ⟨1, 2, 1⟩ [0] _ (by simp [unitHmm, topoBack]) (.inr ⟨0, by simp [unitHmm], rfl⟩)
        (.step ⟨2, 1, 1/2⟩ [1] _ (by simp [unitHmm, topoBack]) (.inr ⟨1, by simp [unitHmm], rfl⟩)
          (.step ⟨1, 2, 1⟩ [0] _ (by simp [unitHmm, topoBack]) (.inr ⟨0, by simp [unitHmm], rfl⟩)
            (.step ⟨2, 3, 1/2⟩ [1] [] (by simp [unitHmm, topoBack]) (.inr ⟨1, by simp [unitHmm], rfl⟩)
              (.stop [] (.inl ⟨by simp [unitHmm], rfl⟩))))))⟩
  · exact ⟨[("a", some 0)], [("a", some 1)], by decide +kernel, by decide +kernel⟩

-- the units of the recipes: the non-speech unit and left-to-right speech units
example : ∃ hmms n, mkphones [("non-speech-unit", nonSpeech), ("speech-unit", topoTwo)]
    [("sil", "non-speech-unit"), ("au1", "speech-unit"), ("au2", "speech-unit")] = .ok (hmms, n) ∧ Inventory hmms n := by
  obtain ⟨hmms, n, h1, h2, -⟩ := C153_inventory [("non-speech-unit", nonSpeech), ("speech-unit", topoTwo)]
    [("sil", "non-speech-unit"), ("au1", "speech-unit"), ("au2", "speech-unit")] (by simp) (by simp)
    (by simpa using ⟨⟨7, C153_topologies.2.1, C153_topologies.2.2.1⟩, ⟨4, topoTwo_valid.1, leftRight_once _ _ topoTwo_valid.1 topoTwo_valid.2⟩⟩)
    (by simp) (by simp)
  exact ⟨hmms, n, h1, h2⟩

end Verif.Props
