import Verif.Lemmas.LoopTrain

/-!
# Properties: the sequences allowed by a trained phone loop (C156)
-/

namespace Verif.Props

open Verif Verif.Spec Verif.Graph Verif.Dists Verif.DecodeCmd Verif.Pipeline Verif.Decode Verif.PostCmd Verif.LoopTrain

/-- **C156 (paths).** Take the decoding graph of a phone loop over units which can all be said, at least two
units, or units beginning and ending in different pdfs.  However many times the weights of the phone loop are updated,
and whatever the (sub-)probabilities, unigram or bigram, the state sequences allowed by its graph are those allowed by
the decoding graph. -/
theorem C156_paths_partial (units : List (String × String)) (group : Option String) (hmms : List (String × Graph ℝ)) (n : ℕ)
    (h : Inventory hmms n) (hsp : ∀ u ∈ units, u.1 ∉ ["\\<s\\>", "\\</s\\>", "#1"])
    (hperm : (hmms.map Prod.fst).Perm (units.map Prod.fst)) (hne : units ≠ [])
    (hgrp : ∀ G, group = some G → ∃ a, (a, G) ∈ units) (hsay : ∀ p ∈ hmms, ∃ v, Accepts p.2 v)
    (htwo : 2 ≤ hmms.length ∨ ∀ p ∈ hmms, ∀ v, Accepts p.2 v → v.head? ≠ v.getLast?) :
    ∃ loop dg entry exit c g, mkphoneloopgraph units group = .ok loop ∧ mkdecodegraph loop hmms = .ok (dg, entry, exit)
      ∧ dg.compile = .ok c ∧ logGraph c = .ok g
      ∧ ∀ history : List (ℕ → ℕ → ℝ), (∀ W ∈ history, ∀ i j, W i j ≤ 0) →
        ∃ g', trainedGraph g entry exit history = .ok g' ∧ g'.last = g.last ∧ (∀ k, g'.pdf k < n)
          ∧ ∀ w, Possible g' w ↔ Possible g w := by
  obtain ⟨E, X, h1, h2⟩ := entry_exit_pdfs hmms n h
  obtain ⟨loop, dg, entry', exit', c, d1, d2, d3, d4, hcn, -, hpm, hcw⟩ := C152_decoding units group hmms
    (hperm.nodup_iff.1 h.names) hsp hperm (inventory_good hmms n h)
  rw [h1] at d3
  obtain ⟨rfl, rfl⟩ := Prod.ext_iff.1 (Except.ok.inj d3)
  rw [h.pdfs] at hpm
  have hEX : ∀ p ∈ hmms, ∀ w, Accepts p.2 w → w.head? = some (E p.2) ∧ w.getLast? = some (X p.2) := fun p hp => (h2 p hp).2
  -- a unit which may begin and end an utterance
  obtain ⟨a, ha, haG⟩ : ∃ a ∈ hmms, ∀ G, group = some G → (a.1, G) ∈ units := by
    have hin : ∀ u ∈ units.map Prod.fst, ∃ a ∈ hmms, a.1 = u := fun u hu => by
      obtain ⟨a, ha, hau⟩ := List.mem_map.1 (hperm.mem_iff.2 hu)
      exact ⟨a, ha, hau⟩
    cases group with
    | none =>
      obtain ⟨u, hu⟩ := List.exists_mem_of_ne_nil _ hne
      obtain ⟨a, ha, -⟩ := hin u.1 (List.mem_map.2 ⟨u, hu, rfl⟩)
      exact ⟨a, ha, fun G hG => by cases hG⟩
    | some G =>
      obtain ⟨u, hu⟩ := hgrp G rfl
      obtain ⟨a, ha, hau⟩ := hin u (List.mem_map.2 ⟨_, hu, rfl⟩)
      exact ⟨a, ha, fun G' hG' => by cases hG'; rw [hau]; exact hu⟩
  have hmem : ∀ p ∈ hmms, p.1 ∈ units.map Prod.fst := fun p hp => hperm.mem_iff.1 (List.mem_map.2 ⟨p, hp, rfl⟩)
  obtain ⟨va, hva⟩ := hsay a ha
  have hvane : va ≠ [] := accepts_ne_nil hmms E X hEX a ha va hva
  have hword : ∀ p ∈ hmms, ∀ q ∈ hmms, ∀ v v', Accepts p.2 v → Accepts q.2 v' → Spells c (va ++ (v ++ (v' ++ va))) := by
    intro p hp q hq v v' hv hv'
    refine (hcw _ (by simp [hvane])).2 ⟨[a.1, p.1, q.1, a.1], [va, v, v', va], ⟨?_, ?_⟩, ?_, by simp⟩
    · intro u hu
      simp only [List.mem_cons, List.not_mem_nil, or_false] at hu
      rcases hu with rfl | rfl | rfl | rfl
      exacts [hmem _ ha, hmem _ hp, hmem _ hq, hmem _ ha]
    · intro G hG
      exact ⟨⟨a.1, rfl, haG G hG⟩, a.1, rfl, haG G hG⟩
    · exact .cons ⟨_, ha, hva⟩ (.cons ⟨_, hp, hv⟩ (.cons ⟨_, hq, hv'⟩ (.cons ⟨_, ha, hva⟩ .nil)))
  have hcross : ∀ p ∈ hmms, ∀ q ∈ hmms, 0 < c.trans (X p.2) (E q.2) := by
    intro p hp q hq
    obtain ⟨v, hv⟩ := hsay p hp
    obtain ⟨v', hv'⟩ := hsay q hq
    exact chain_cross va v v' va (spells_chain c n hpm _ (hword p hp q hq v v' hv hv')) _ _ (hEX p hp v hv).2 (hEX q hq v' hv').1
  have hEmem : ∀ p ∈ hmms, ∃ i, (i, some (E p.2)) ∈ p.2.states := by
    intro p hp
    obtain ⟨v, hv⟩ := hsay p hp
    exact accepts_mem _ _ hv _ (List.mem_of_mem_head? (hEX p hp v hv).1)
  have hEn : ∀ p ∈ hmms, E p.2 < n := by
    intro p hp
    obtain ⟨i, hi⟩ := hEmem p hp
    rw [← List.mem_range, ← h.pdfs]
    exact List.mem_flatMap.2 ⟨p, hp, List.mem_filterMap.2 ⟨_, hi, rfl⟩⟩
  obtain ⟨g, hg, -, hgw⟩ := logGraph_possible c hcn _ (hword a ha a ha va va hva hva)
  refine ⟨loop, dg, _, _, c, g, d1, d2, d4, hg, fun history hW => ?_⟩
  obtain ⟨g1, g2, g3⟩ := logGraph_known c hcn n hpm g hg
  have hlen : c.pdfMapping.length = n := by rw [hpm, List.length_range]
  -- the self-loops
  have hloop : ∀ p ∈ hmms, c.trans (X p.2) (X p.2) < 1 := by
    intro p hp
    obtain ⟨q, hq, hqp⟩ : ∃ q ∈ hmms, E q.2 ≠ X p.2 := by
      by_contra hcon
      push Not at hcon
      rcases htwo with htwo | htwo
      · obtain ⟨p0, p1, rest, rfl⟩ : ∃ p0 p1 rest, hmms = p0 :: p1 :: rest := by
          match hmms, htwo with
          | p0 :: p1 :: rest, _ => exact ⟨p0, p1, rest, rfl⟩
        have e0 := hcon p0 (by simp)
        have e1 := hcon p1 (by simp)
        refine entries_ne _ n h p0 p1 (by simp) (by simp) ?_ (X p.2) (e0 ▸ hEmem p0 (by simp)) (e1 ▸ hEmem p1 (by simp))
        rintro rfl
        have := h.names
        simp at this
      · obtain ⟨v, hv⟩ := hsay p hp
        refine htwo p hp v hv ?_
        rw [(hEX p hp v hv).1, (hEX p hp v hv).2, hcon p hp]
    exact compiled_loop_lt _ c d4 hcn _ _ (by rw [hlen]; exact (h2 p hp).1) (by rw [hlen]; exact hEn q hq) hqp (hcross p hp q hq)
  obtain ⟨s, s1, s2⟩ := indices_ok (g.last + 1) (hmms.map fun p => (p.1, some (E p.2))) (by
    intro x hx
    obtain ⟨p, hp, rfl⟩ := List.mem_map.1 hx
    exact ⟨_, rfl, by rw [g1]; exact hEn p hp⟩)
  obtain ⟨e, e1, e2⟩ := indices_ok (g.last + 1) (hmms.map fun p => (p.1, some (X p.2))) (by
    intro x hx
    obtain ⟨p, hp, rfl⟩ := List.mem_map.1 hx
    exact ⟨_, rfl, by rw [g1]; exact (h2 p hp).1⟩)
  have hval : ∀ (F : Graph ℝ → ℕ) (l : List (Fin (g.last + 1))), l.map Fin.val = (hmms.map fun p => (p.1, some (F p.2))).filterMap Prod.snd →
      ∀ x ∈ l, ∃ p ∈ hmms, x.1 = F p.2 := by
    intro F l hl x hx
    have : x.1 ∈ l.map Fin.val := List.mem_map.2 ⟨x, hx, rfl⟩
    rw [hl, List.filterMap_map] at this
    obtain ⟨p, hp, hp'⟩ := List.mem_filterMap.1 this
    exact ⟨p, hp, (Option.some.inj hp').symm⟩
  have hsup := history_sup (fun a b => 0 < c.trans a.1 b.1) s e (by
    intro x hx y hy
    obtain ⟨p, hp, hxp⟩ := hval X e e2 x hx
    obtain ⟨q, hq, hyq⟩ := hval E s s2 y hy
    rw [hxp, hyq]
    exact hcross p hp q hq) history hW g.graph.trans (by
    constructor
    · intro a b
      rw [g3]
      exact llog_ne_bot _ (hcn.2.2 _ (by rw [hlen]; omega) _ (by rw [hlen]; omega))
    · intro x hx
      obtain ⟨p, hp, hxp⟩ := hval X e e2 x hx
      rw [g3, lexp_llog (hcn.2.2 _ (by rw [hlen]; omega) _ (by rw [hlen]; omega)), hxp]
      exact hloop p hp)
  refine ⟨⟨g.last, ⟨g.graph.init, g.graph.final, history.foldl (onUpdate s e) g.graph.trans⟩, g.pdf⟩, ?_, rfl, ?_, ?_⟩
  · unfold trainedGraph
    rw [s1]
    dsimp only
    rw [e1]
  · intro k
    have := k.2
    dsimp only at this ⊢
    rw [g2]
    omega
  · intro w
    have hiff : ∀ a b, history.foldl (onUpdate s e) g.graph.trans a b ≠ ⊥ ↔ g.graph.trans a b ≠ ⊥ := by
      intro a b
      rw [hsup.1 a b, g3]
      exact (llog_ne_bot _ (hcn.2.2 _ (by rw [hlen]; omega) _ (by rw [hlen]; omega))).symm
    unfold Possible
    dsimp only
    simp only [hiff]

/-- **C156 (decoding).** Free decoding with the trained phone loop: when the frames are as many as in some way of saying an
allowed sequence of units, the states decoded are those of a way of saying an allowed sequence, and what is printed
is an allowed sequence, this one up to units merged with their own repetition. -/
theorem C156_decode_partial (units : List (String × String)) (group : Option String) (hmms : List (String × Graph ℝ)) (n : ℕ)
    (h : Inventory hmms n) (hsp : ∀ u ∈ units, u.1 ∉ ["\\<s\\>", "\\</s\\>", "#1"])
    (hperm : (hmms.map Prod.fst).Perm (units.map Prod.fst)) (hne : units ≠ [])
    (hgrp : ∀ G, group = some G → ∃ a, (a, G) ∈ units) (hsay : ∀ p ∈ hmms, ∃ v, Accepts p.2 v)
    (htwo : 2 ≤ hmms.length ∨ ∀ p ∈ hmms, ∀ v, Accepts p.2 v → v.head? ≠ v.getLast?) :
    ∃ loop dg entry exit c g, mkphoneloopgraph units group = .ok loop ∧ mkdecodegraph loop hmms = .ok (dg, entry, exit)
      ∧ dg.compile = .ok c ∧ logGraph c = .ok g
      ∧ ∀ history : List (ℕ → ℕ → ℝ), (∀ W ∈ history, ∀ i j, W i j ≤ 0) →
        ∃ g', trainedGraph g entry exit history = .ok g'
          ∧ ∀ (am : Argmax), (∀ k, IsArgmax (am k)) → ∀ m : HModel, m.graph = g' → m.nPdfs = n → m.startPdf = entry →
            ∀ (scale : ℝ) (x : Feats), (∃ us ws, us ≠ [] ∧ LoopSeq units group us ∧ Spoken hmms us ws ∧ x.n = ws.flatten.length) →
            ∃ us ws, LoopSeq units group us ∧ Spoken hmms us ws ∧ ws.flatten.length = x.n
              ∧ decode am m scale none x = .ok ws.flatten
              ∧ state2phone (starts m.startPdf) true ws.flatten
                  = .ok (List.zipWith (fun u v => v.map fun _ => u) us ws).flatten
              ∧ ∃ out, state2phone (starts m.startPdf) false ws.flatten = .ok out ∧ Merged us out
                  ∧ LoopSeq units group out := by
  obtain ⟨loop, dg, entry, exit, c, g, p1, p2, p3, p4, p5⟩ := C156_paths_partial units group hmms n h hsp hperm hne hgrp hsay htwo
  obtain ⟨entry', exit', h1, h2, h3⟩ := spoken_printed hmms n h
  obtain ⟨loop', dg', entry'', exit'', c', d1, d2, d3, d4, hcn, -, -, hcw⟩ := C152_decoding units group hmms
    (hperm.nodup_iff.1 h.names) hsp hperm (inventory_good hmms n h)
  rw [p1] at d1
  cases Except.ok.inj d1
  rw [p2] at d2
  obtain ⟨rfl, he⟩ := Prod.ext_iff.1 (Except.ok.inj d2)
  obtain ⟨rfl, rfl⟩ := Prod.ext_iff.1 he
  rw [h1] at d3
  obtain ⟨rfl, rfl⟩ := Prod.ext_iff.1 (Except.ok.inj d3)
  dsimp only at *
  rw [p3] at d4
  cases Except.ok.inj d4
  refine ⟨loop, dg, _, _, c, g, p1, p2, p3, p4, fun history hW => ?_⟩
  obtain ⟨g', q1, -, q3, q4⟩ := p5 history hW
  refine ⟨g', q1, ?_⟩
  rintro am ham m rfl hmn hms scale x ⟨us0, ws0, hne0, hl0, hws0, hx⟩
  have hw0 := (h3 us0 ws0 hws0).1 hne0
  have hsp0 : Spells c ws0.flatten := (hcw _ hw0).2 ⟨us0, ws0, hl0, hws0, rfl⟩
  obtain ⟨g0, hg0, -, hgw⟩ := logGraph_possible c hcn _ hsp0
  rw [p4] at hg0
  cases Except.ok.inj hg0
  obtain ⟨path, r1, r2, r3⟩ := C153_path am ham m scale none x (by
    intro k
    rw [hmn]
    exact q3 k) ⟨_, (q4 _).2 ((hgw _).2 hsp0), hx.symm⟩
  have hpne : path ≠ [] := by
    rintro rfl
    rw [hx] at r2
    exact hw0 (List.length_eq_zero_iff.1 r2.symm)
  obtain ⟨us, ws, w0, w1, rfl⟩ := (hcw _ hpne).1 ((hgw _).1 ((q4 _).1 r3))
  have hune : us ≠ [] := by
    rintro rfl
    cases w1
    exact hpne rfl
  obtain ⟨v1, ⟨out, v2, v3⟩, -⟩ := (h3 us ws w1).2 hune
  rw [hms]
  exact ⟨us, ws, w0, w1, r2, r1, v1, out, v2, v3, merged_loopSeq _ _ _ _ v3 w0⟩

/-- **C156 (weights).** The log-weights of a phone loop whose weights are a Dirichlet, whatever the concentrations reached by
training, satisfy the hypothesis of C156. -/
theorem C156_weights {P : ℕ} (conc : List ℝ) (hl : conc.length = P) (hpos : ∀ x ∈ conc, 0 < x) (j : Fin P) :
    PhoneLoop.unigramLogWeights conc j ≤ 0 := by
  subst hl
  have h := (C41_expected_log_weights_subnormalised conc hpos).1
  rw [List.sum_ofFn] at h
  rw [← Real.exp_le_one_iff]
  refine le_trans ?_ h
  exact Finset.single_le_sum (f := fun i : Fin conc.length => Real.exp (Dists.catExpLlh conc (DistSpec.oneHot conc.length i)))
    (fun i _ => (Real.exp_pos _).le) (Finset.mem_univ j)

/-- The same for weights which are a stick-breaking process, and for those of every context of a bigram phone loop. -/
theorem C156_weights_sb {P : ℕ} [NeZero P] (σ : Equiv.Perm (Fin P)) (conc : Fin P → ℝ × ℝ)
    (hpos : ∀ k, 0 < (conc k).1 ∧ 0 < (conc k).2) (j : Fin P) :
    sbExpLlh σ conc (Pi.single j 1) ≤ 0 := by
  rw [← Real.exp_le_one_iff]
  refine le_trans ?_ (C80_stick_log_weights σ conc hpos).2.le
  exact Finset.single_le_sum (f := fun k => Real.exp (sbExpLlh σ conc (Pi.single k 1)))
    (fun i _ => (Real.exp_pos _).le) (Finset.mem_univ j)

/-- The updates of C156 with the same row for all the units are those of C19. -/
theorem onUpdate_unigram {n : ℕ} (s e : List (Fin n)) (T : PhoneLoop.TMat n) (w : ℕ → ℝ) :
    onUpdate s e T (fun _ => w) = PhoneLoop.refresh (fun j : Fin s.length => s[j.1]) e (fun j => w j.1) T := by
  unfold onUpdate PhoneLoop.refresh
  generalize 0 = k
  induction e generalizing T k with
  | nil => rfl
  | cons x e ih =>
    rw [List.zipIdx_cons, List.foldl_cons, List.foldl_cons]
    exact ih _ _

-- the phone loop over two units after three updates of its weights: five frames are decoded
example : ∃ loop dg entry exit c g, mkphoneloopgraph [("a", "sp"), ("b", "sp")] none = .ok loop
    ∧ mkdecodegraph loop demoInv = .ok (dg, entry, exit) ∧ dg.compile = .ok c ∧ logGraph c = .ok g
    ∧ ∃ g', trainedGraph g entry exit [fun _ j => if h : j < 2 then PhoneLoop.unigramLogWeights (P := 2) [1, 2] ⟨j, h⟩ else 0,
        fun _ _ => -1, fun i j => -(i : ℝ) - j] = .ok g'
      ∧ ∀ (am : Argmax), (∀ k, IsArgmax (am k)) → ∀ llh scale, ∃ path out,
        decode am ⟨g', 3, entry⟩ scale none ⟨5, llh⟩ = .ok path ∧ path.length = 5
        ∧ state2phone (starts entry) false path = .ok out ∧ LoopSeq [("a", "sp"), ("b", "sp")] none out := by
  obtain ⟨loop, dg, entry, exit, c, g, h1, h2, h3, h4, h5⟩ := C156_decode_partial [("a", "sp"), ("b", "sp")] none demoInv 3
    demoInv_ok (by decide +kernel) (List.Perm.refl _) (by simp) (by simp) (by
      intro p hp
      simp only [demoInv, List.mem_cons, List.not_mem_nil, or_false] at hp
      have := demo_spoken
      cases this with
      | cons ha hr =>
        cases hr with
        | cons hb _ =>
          obtain ⟨x, hx, ha⟩ := ha
          obtain ⟨y, hy, hb⟩ := hb
          simp only [demoInv, List.mem_cons, Prod.mk.injEq, true_and, List.not_mem_nil, or_false, String.reduceEq, false_and,
            false_or] at hx hy
          subst hx hy
          rcases hp with rfl | rfl
          · exact ⟨_, ha⟩
          · exact ⟨_, hb⟩) (.inl (by simp [demoInv]))
  obtain ⟨g', h6, h7⟩ := h5 [fun _ j => if h : j < 2 then PhoneLoop.unigramLogWeights (P := 2) [1, 2] ⟨j, h⟩ else 0,
        fun _ _ => -1, fun i j => -(i : ℝ) - j] (by
    intro W hW i j
    simp only [List.mem_cons, List.not_mem_nil, or_false] at hW
    rcases hW with rfl | rfl | rfl
    · dsimp only
      split
      · exact C156_weights _ rfl (by simp) _
      · exact le_rfl
    · norm_num
    · have : (0 : ℝ) ≤ i := Nat.cast_nonneg i
      have : (0 : ℝ) ≤ j := Nat.cast_nonneg j
      dsimp only
      linarith)
  refine ⟨loop, dg, entry, exit, c, g, h1, h2, h3, h4, g', h6, fun am ham llh scale => ?_⟩
  obtain ⟨us, ws, -, -, h8, h9, -, out, h10, -, h11⟩ := h7 am ham ⟨g', 3, entry⟩ rfl rfl rfl scale ⟨5, llh⟩
    ⟨["a", "b", "a"], _, by simp, ⟨by decide, by simp⟩, demo_spoken, rfl⟩
  exact ⟨_, out, h9, h8, h10, h11⟩

/-! ## One unit with one pdf -/

/-- The probabilities of a compiled graph as real numbers. -/
noncomputable def realGraph (c : Compiled ℚ) : Compiled ℝ :=
  ⟨c.init.map fun v k => ((v k : ℚ) : ℝ), c.final.map fun v k => ((v k : ℚ) : ℝ), fun a b => ((c.trans a b : ℚ) : ℝ), c.pdfMapping⟩

/-- The decoding graph of a single unit with a single pdf. -/
def oneUnit : Bool :=
  match mkphoneloopgraph (F := ℚ) [("a", "sil")] (some "sil") with
  | .ok loop =>
    match mkdecodegraph loop [("a", unitHmm topoUnit 3 0)] with
    | .ok (g, entry, exit) =>
      match g.compile with
      | .ok c => c.init.map (· 0) = some 1 ∧ c.final.map (· 0) = some 1 ∧ c.trans 0 0 = 1 ∧ c.pdfMapping = [0]
        ∧ entry = [("a", some 0)] ∧ exit = [("a", some 0)]
      | _ => false
    | _ => false
  | _ => false

theorem oneUnit_true : oneUnit = true := by decide +kernel

theorem oneUnit_graph : ∃ loop dg entry exit c,
    mkphoneloopgraph (F := ℚ) [("a", "sil")] (some "sil") = .ok loop
    ∧ mkdecodegraph loop [("a", unitHmm topoUnit 3 0)] = .ok (dg, entry, exit) ∧ dg.compile = .ok c
    ∧ c.init.map (· 0) = some 1 ∧ c.final.map (· 0) = some 1 ∧ c.trans 0 0 = 1 ∧ c.pdfMapping = [0]
    ∧ entry = [("a", some 0)] ∧ exit = [("a", some 0)] := by
  have h := oneUnit_true
  unfold oneUnit at h
  split at h
  · rename_i loop h1
    split at h
    · rename_i g entry exit h2
      split at h
      · rename_i c h3
        exact ⟨loop, g, entry, exit, c, h1, h2, h3, of_decide_eq_true h⟩
      · cases h
    · cases h
  · cases h

/-- **C156 (negation).** A phone loop over a single unit with a single pdf, which begins and ends the utterances: its decoding
graph allows utterances of any number of frames, but the graph of the phone loop, as soon as it is made and whatever
its weights, allows no utterance of more than one frame. -/
theorem C156_stuck : ∃ loop dg entry exit c g,
    mkphoneloopgraph (F := ℚ) [("a", "sil")] (some "sil") = .ok loop
    ∧ mkdecodegraph loop [("a", unitHmm topoUnit 3 0)] = .ok (dg, entry, exit) ∧ dg.compile = .ok c
    ∧ logGraph (realGraph c) = .ok g
    ∧ (∀ k, Possible g (List.replicate (k + 1) 0))
    ∧ ∀ W, ∃ g', trainedGraph g entry exit [W] = .ok g' ∧ ∀ w, Possible g' w → w.length = 1 := by
  obtain ⟨loop, dg, entry, exit, c, h1, h2, h3, h4, h5, h6, h7, rfl, rfl⟩ := oneUnit_graph
  obtain ⟨ci, cf, ct, cp⟩ := c
  dsimp only at h4 h5 h6 h7
  subst h7
  obtain ⟨vi, hvi, hvi1⟩ := Option.map_eq_some_iff.1 h4
  obtain ⟨vf, hvf, hvf1⟩ := Option.map_eq_some_iff.1 h5
  have hone : llog ((1 : ℚ) : ℝ) = ((0 : ℝ) : LogR) := by simp [llog]
  have hzero : ∀ k : Fin 1, (k : ℕ) = 0 := fun k => by omega
  refine ⟨loop, dg, _, _, _, ⟨0, ⟨fun _ => ((0 : ℝ) : LogR), fun _ => ((0 : ℝ) : LogR), fun _ _ => ((0 : ℝ) : LogR)⟩, fun _ => 0⟩,
    h1, h2, h3, ?_, fun k => ?_, fun W => ?_⟩
  · unfold logGraph realGraph
    simp only [hvi, hvf, Option.map_some]
    rw [if_neg (by simp)]
    refine congrArg Except.ok ?_
    show (⟨0, _, _⟩ : LGraph) = _
    congr 1
    · congr 1
      · funext k
        rw [hzero k, hvi1, hone]
      · funext k
        rw [hzero k, hvf1, hone]
      · funext a b
        rw [hzero a, hzero b, h6, hone]
    · funext k
      rw [hzero k]
      rfl
  · refine ⟨List.replicate (k + 1) 0, ⟨0, rfl, WithBot.coe_ne_bot⟩, ?_, ⟨0, by simp [List.getLast?_replicate], WithBot.coe_ne_bot⟩, by simp⟩
    exact List.isChain_replicate_of_rel _ WithBot.coe_ne_bot
  · refine ⟨⟨0, ⟨fun _ => ((0 : ℝ) : LogR), fun _ => ((0 : ℝ) : LogR), fun _ _ => ⊥⟩, fun _ => 0⟩, ?_, ?_⟩
    · have hi : indices 1 [("a", some 0)] = .ok [0] := rfl
      unfold trainedGraph
      dsimp only
      rw [hi]
      dsimp only
      congr 3
      funext a b
      have ha : a = 0 := Fin.ext (by omega)
      have hb : b = 0 := Fin.ext (by omega)
      subst ha hb
      change PhoneLoop.refreshEnd (fun j : Fin 1 => ([0] : List (Fin 1))[j.1]) (fun j => W 0 j.1) (fun _ _ => ((0 : ℝ) : LogR)) 0 0 0 = ⊥
      rcases refreshEnd_cases (fun j : Fin 1 => ([0] : List (Fin 1))[j.1]) (fun j => W 0 j.1)
        (fun _ _ => ((0 : ℝ) : LogR)) 0 0 0 with ⟨-, h⟩ | ⟨-, j, -, h⟩
      · exact absurd rfl (h rfl 0)
      · refine h.trans ?_
        simp [llog]
    · rintro w ⟨q, ⟨a, ha, -⟩, hch, -, rfl⟩
      match q, ha, hch with
      | [x], _, _ => rfl
      | x :: y :: q, _, hch =>
        rw [List.isChain_cons_cons] at hch
        exact absurd rfl hch.1

end Verif.Props
