import Verif.Spec.DecodeCmd
import Verif.Spec.GraphSupport
import Verif.Props.LoopGraph
import Verif.Props.HMM
import Verif.Props.Decode
import Verif.Lemmas.CompiledLang
import Mathlib.Data.List.ChainOfFn

/-! # Helper lemmas: decoding -/

namespace Verif
namespace DecodeCmd

open Spec Graph Props Pipeline

/-! ### The best path -/

theorem llog_eq_bot (x : ℝ) : llog x = ⊥ ↔ x = 0 := by
  unfold llog
  split
  · simp [*]
  · simp [*]

theorem llog_ne_bot (x : ℝ) (h : 0 ≤ x) : llog x ≠ ⊥ ↔ 0 < x := by
  rw [Ne, llog_eq_bot]
  exact ⟨fun h' => lt_of_le_of_ne h (Ne.symm h'), fun h' => h'.ne'⟩

theorem ofFn_head {α : Type} (n : ℕ) (f : Fin (n + 1) → α) : (List.ofFn f).head? = some (f 0) := by
  rw [List.ofFn_succ]; rfl

theorem ofFn_last {α : Type} (n : ℕ) (f : Fin (n + 1) → α) : (List.ofFn f).getLast? = some (f (Fin.last n)) := by
  rw [List.ofFn_succ', List.concat_eq_append, List.getLast?_append]; rfl

theorem exists_ofFn {α : Type} (n : ℕ) (q : List α) (h : q.length = n + 1) : ∃ f : Fin (n + 1) → α, q = List.ofFn f := by
  subst_vars
  refine ⟨fun i => q[i.1]'(by omega), ?_⟩
  refine List.ext_getElem (by simp [h]) ?_
  intro i h1 h2
  rw [List.getElem_ofFn]

/-- The best path is possible as soon as some path is. -/
theorem bestPath_possible (am : Argmax) (ham : ∀ k, IsArgmax (am k)) (g : LGraph) (n : ℕ) (llh : Fin (n + 1) → Fin (g.last + 1) → ℝ)
    (w : List ℕ) (hw : Possible g w) (hl : w.length = n + 1) :
    Possible g ((List.ofFn (bestPath (am g.last) g.graph fun t k => ((llh t k : ℝ) : LogR))).map g.pdf) := by
  obtain ⟨q, ⟨a, ha, hia⟩, hch, ⟨b, hb, hfb⟩, rfl⟩ := hw
  rw [List.length_map] at hl
  obtain ⟨p, rfl⟩ := exists_ofFn n q hl
  rw [ofFn_head] at ha
  rw [ofFn_last] at hb
  cases ha
  cases hb
  rw [List.isChain_ofFn] at hch
  have hev : 0 < evidence g.graph fun t k => ((llh t k : ℝ) : LogR) := by
    rw [evidence_pos_iff]
    refine ⟨p, ?_⟩
    unfold pathScore
    have hs : ∀ {ι : Type} (s : Finset ι) (f : ι → LogR), (∀ i ∈ s, f i ≠ ⊥) → ∑ i ∈ s, f i ≠ ⊥ := by
      intro ι s f
      classical
      induction s using Finset.induction_on with
      | empty => intro _; rw [Finset.sum_empty]; exact WithBot.coe_ne_bot (a := (0 : ℝ))
      | insert i s hi ih =>
        intro h
        rw [Finset.sum_insert hi, Ne, WithBot.add_eq_bot, not_or]
        exact ⟨h i (Finset.mem_insert_self _ _), ih fun j hj => h j (Finset.mem_insert_of_mem hj)⟩
    rw [Ne, WithBot.add_eq_bot, WithBot.add_eq_bot, WithBot.add_eq_bot, not_or, not_or, not_or]
    refine ⟨⟨⟨hia, hs _ _ fun i _ => ?_⟩, hs _ _ fun t _ => WithBot.coe_ne_bot⟩, hfb⟩
    exact hch i.1 (by omega)
  obtain ⟨f1, f2, -, f4⟩ := C14_best_path_feasible (ham g.last) g.graph _ hev
  refine ⟨_, ⟨_, ofFn_head _ _, f1⟩, ?_, ⟨_, ofFn_last _ _, f4⟩, rfl⟩
  rw [List.isChain_ofFn]
  intro i hi
  exact f2 ⟨i, by omega⟩

theorem decode_possible (am : Argmax) (ham : ∀ k, IsArgmax (am k)) (m : HModel) (scale : ℝ) (ig : Option LGraph)
    (x : Feats) (hp : ∀ k, (ig.getD m.graph).pdf k < m.nPdfs) (w : List ℕ) (hw : Possible (ig.getD m.graph) w)
    (hl : w.length = x.n) :
    ∃ path, decode am m scale ig x = .ok path ∧ path.length = x.n ∧ Possible (ig.getD m.graph) path := by
  obtain ⟨n, llh⟩ := x
  dsimp only at hl
  cases n with
  | zero =>
    obtain ⟨q, ⟨a, ha, -⟩, -, -, rfl⟩ := hw
    cases q with
    | nil => cases ha
    | cons _ _ => simp at hl
  | succ n =>
    refine ⟨_, ?_, ?_, bestPath_possible am ham _ n (fun t k => scale * llh t ((ig.getD m.graph).pdf k)) w hw hl⟩
    · unfold decode
      dsimp only
      rw [if_neg]
      · rfl
      · simp only [List.any_eq_true, List.mem_finRange, true_and, decide_eq_true_eq, not_exists, not_le]
        exact hp
    · simp

theorem decode_length (am : Argmax) (m : HModel) (scale : ℝ) (ig : Option LGraph)
    (x : Feats) (hp : ∀ k, (ig.getD m.graph).pdf k < m.nPdfs) (hx : 0 < x.n) :
    ∃ path, decode am m scale ig x = .ok path ∧ path.length = x.n := by
  obtain ⟨n, llh⟩ := x
  dsimp only at hx
  cases n with
  | zero => omega
  | succ n =>
    refine ⟨(List.ofFn (bestPath (am (ig.getD m.graph).last) (ig.getD m.graph).graph
      fun t k => ((scale * llh t ((ig.getD m.graph).pdf k) : ℝ) : LogR))).map (ig.getD m.graph).pdf, ?_, by simp⟩
    unfold decode
    dsimp only
    rw [if_neg]
    · rfl
    · simp only [List.any_eq_true, List.mem_finRange, true_and, decide_eq_true_eq, not_exists, not_le]
      exact hp

/-- The logarithms of a compiled graph have the same paths. -/
theorem logGraph_possible (c : Compiled ℝ) (hn : Nonneg c) (w0 : List ℕ) (hw0 : Spells c w0) :
    ∃ g, logGraph c = .ok g ∧ (∀ k, g.pdf k ∈ c.pdfMapping) ∧ ∀ w, Possible g w ↔ Spells c w := by
  obtain ⟨q0, ⟨i, f, hi, hf, hq0, ⟨a0, ha0, -⟩, -, -⟩, -⟩ := hw0
  have hlen : 0 < c.pdfMapping.length := by
    have := hq0 a0 (List.mem_of_mem_head? ha0)
    omega
  have hne : c.pdfMapping ≠ [] := List.length_pos_iff.1 hlen
  refine ⟨⟨c.pdfMapping.length - 1, ⟨fun k => llog (i k), fun k => llog (f k), fun a b => llog (c.trans a b)⟩,
      fun k => c.pdfMapping.getD k 0⟩, ?_, ?_, ?_⟩
  · unfold logGraph
    rw [hi, hf]
    dsimp only
    rw [if_neg hne]
  · intro k
    dsimp only
    have hk : k.1 < c.pdfMapping.length := by
      have := k.2
      dsimp only at this
      omega
    rw [List.getD_eq_getElem?_getD, List.getElem?_eq_getElem hk]
    exact List.getElem_mem hk
  · intro w
    have hb : ∀ k : Fin (c.pdfMapping.length - 1 + 1), k.1 < c.pdfMapping.length := fun k => by omega
    constructor
    · rintro ⟨q, ⟨a, ha, hia⟩, hch, ⟨b, hb', hfb⟩, rfl⟩
      dsimp only at *
      refine ⟨q.map Fin.val, ⟨i, f, hi, hf, ?_, ⟨a.1, by rw [List.head?_map, ha]; rfl, ?_⟩, ?_, b.1, by rw [List.getLast?_map, hb']; rfl, ?_⟩, ?_⟩
      · intro k hk
        obtain ⟨k, -, rfl⟩ := List.mem_map.1 hk
        exact hb k
      · exact (llog_ne_bot _ (hn.1 i hi _ (hb a))).1 hia
      · rw [List.isChain_map]
        exact hch.imp fun a b h => (llog_ne_bot _ (hn.2.2 _ (hb a) _ (hb b))).1 h
      · exact (llog_ne_bot _ (hn.2.1 f hf _ (hb b))).1 hfb
      · rw [List.map_map]; rfl
    · rintro ⟨q, ⟨i', f', hi', hf', hq, ⟨a, ha, hia⟩, hch, b, hb', hfb⟩, rfl⟩
      rw [hi] at hi'
      rw [hf] at hf'
      cases hi'
      cases hf'
      obtain ⟨q, rfl⟩ : ∃ q' : List (Fin (c.pdfMapping.length - 1 + 1)), q = q'.map Fin.val := by
        refine ⟨q.pmap (fun k hk => ⟨k, hk⟩) fun k hk => (by have := hq k hk; omega), ?_⟩
        rw [List.map_pmap]
        simp
      rw [List.head?_map] at ha
      rw [List.getLast?_map] at hb'
      rw [List.isChain_map] at hch
      obtain ⟨a, ha1, rfl⟩ := Option.map_eq_some_iff.1 ha
      obtain ⟨b, hb1, rfl⟩ := Option.map_eq_some_iff.1 hb'
      refine ⟨q, ⟨a, ha1, ?_⟩, ?_, ⟨b, hb1, ?_⟩, ?_⟩
      · exact (llog_ne_bot _ (hn.1 i hi _ (hb a))).2 hia
      · exact hch.imp fun a b h => (llog_ne_bot _ (hn.2.2 _ (hb a) _ (hb b))).2 h
      · exact (llog_ne_bot _ (hn.2.1 f hf _ (hb b))).2 hfb
      · rw [List.map_map]; rfl

/-! ### Units -/

variable {F : Type}

theorem unitHmm_state (topo : List (Arc F)) (m f i : ℕ) (o : Option ℕ) :
    (i, o) ∈ (unitHmm topo m f).states ↔ i < m ∧ o = if i = 0 ∨ i = m - 1 then none else some (f + (i - 1)) := by
  simp only [unitHmm, List.mem_map, List.mem_range, Prod.mk.injEq]
  constructor
  · rintro ⟨j, hj, rfl, rfl⟩
    exact ⟨hj, rfl⟩
  · rintro ⟨hi, rfl⟩
    exact ⟨i, hi, rfl, rfl⟩

theorem unit_lab (topo : List (Arc F)) (m f i : ℕ) (w : List ℕ) (h : emitLab (unitHmm topo m f) i w) :
    i < m ∧ ((i = 0 ∨ i = m - 1) ∧ w = [] ∨ ¬ (i = 0 ∨ i = m - 1) ∧ w = [f + (i - 1)]) := by
  rcases h with ⟨h, rfl⟩ | ⟨p, h, rfl⟩
  · rw [unitHmm_state] at h
    refine ⟨h.1, Or.inl ⟨?_, rfl⟩⟩
    by_contra hc
    rw [if_neg hc] at h
    cases h.2
  · rw [unitHmm_state] at h
    by_cases hc : i = 0 ∨ i = m - 1
    · rw [if_pos hc] at h
      cases h.2
    · rw [if_neg hc] at h
      exact ⟨h.1, Or.inr ⟨hc, by rw [Option.some.inj h.2]⟩⟩

theorem topo_last [LT F] [Zero F] (topo : List (Arc F)) (m : ℕ) (h : ValidTopo topo m) (hl : ∀ a ∈ topo, a.start ≤ a.stop) :
    ∀ a ∈ topo, a.start ≠ m - 1 := by
  intro a ha he
  obtain ⟨x, hx, h1, h2, h3, h4⟩ := h.exit
  have hb := (h.below a ha).2
  have hab := hl a ha
  have := h4 a ha (by omega)
  subst this
  omega

/-- Topologies which never go back enter their first emitting state once. -/
theorem leftRight_once [LT F] [Zero F] (topo : List (Arc F)) (m : ℕ) (h : ValidTopo topo m) (hl : ∀ a ∈ topo, a.start ≤ a.stop) :
    EntersOnce topo m := by
  refine ⟨topo_last topo m h hl, fun a _ _ b hb hba hr => ?_⟩
  have hle : ∀ k, Relation.ReflTransGen (fun i j => ∃ c ∈ topo, c.start = i ∧ c.stop = j) a.stop k → a.stop ≤ k := by
    intro k hk
    induction hk with
    | refl => exact le_rfl
    | tail _ hc ih =>
      obtain ⟨c, hc, rfl, rfl⟩ := hc
      exact ih.trans (hl c hc)
  have := hle _ hr
  have := hl b hb
  omega

theorem unit_inner [LT F] [Zero F] (topo : List (Arc F)) (m f : ℕ) (h : ValidTopo topo m)
    (hl : EntersOnce topo m) (x : Arc F) (hx : ∀ b ∈ topo, b.stop = m - 1 → b = x) (en : Arc F) (hen : en ∈ topo)
    (hen0 : en.start = 0) (hen1 : 0 < en.stop) (i : ℕ) (w : List ℕ)
    (hr : Reads (unitHmm topo m f) (emitLab (unitHmm topo m f)) (m - 1) i w)
    (hi : Relation.ReflTransGen (fun i j => ∃ c ∈ topo, c.start = i ∧ c.stop = j) en.stop i) :
    (i = m - 1 ∧ w = []) ∨ (i < m - 1 ∧ w.head? = some (f + (i - 1)) ∧ w.getLast? = some (f + (x.start - 1))
      ∧ w.IsChain (fun s t => t = f + (en.stop - 1) → s = f + (en.stop - 1)) ∧ ∀ s ∈ w, f ≤ s ∧ s ≤ f + (m - 3)) := by
  induction hr with
  | stop w hw =>
    obtain ⟨-, h1 | h1⟩ := unit_lab _ _ _ _ _ hw
    · exact Or.inl ⟨rfl, h1.2⟩
    · exact absurd (Or.inr rfl) h1.1
  | step a w w' ha hw _ ih =>
    have ha' : a ∈ topo := ha
    have h1 := hl.ends a ha'
    have h2 := h.below a ha'
    have hne : ∀ k, Relation.ReflTransGen (fun i j => ∃ c ∈ topo, c.start = i ∧ c.stop = j) en.stop k → k ≠ 0 := by
      rintro k hk rfl
      have := hl.once en hen hen0 en hen rfl (hen0 ▸ hk)
      omega
    have h0 := hne _ hi
    have hi' : Relation.ReflTransGen (fun i j => ∃ c ∈ topo, c.start = i ∧ c.stop = j) en.stop a.stop :=
      hi.tail ⟨a, ha', rfl, rfl⟩
    have h0' := hne _ hi'
    right
    obtain ⟨-, h4 | h4⟩ := unit_lab _ _ _ _ _ hw
    · omega
    obtain ⟨-, rfl⟩ := h4
    refine ⟨by omega, rfl, ?_⟩
    rcases ih hi' with ⟨e1, rfl⟩ | ⟨e1, e2, e3, e4, e5⟩
    · have := hx a ha' e1
      subst this
      refine ⟨rfl, by simp, ?_⟩
      intro s hs
      simp only [List.append_nil, List.mem_cons, List.not_mem_nil, or_false] at hs
      omega
    · cases w' with
      | nil => cases e2
      | cons t w' =>
        have e2' : t = f + (a.stop - 1) := by simpa using e2
        refine ⟨?_, ?_, ?_⟩
        · rw [List.getLast?_append, e3]; rfl
        · show ((f + (a.start - 1)) :: t :: w').IsChain _
          rw [List.isChain_cons_cons]
          refine ⟨fun ht => ?_, e4⟩
          have := hl.once en hen hen0 a ha' (by omega) hi
          rw [this]
        · intro s hs
          rcases List.mem_cons.1 hs with rfl | hs
          · omega
          · exact e5 s hs

/-- What is to be known of a unit. -/
theorem unit_word [Field F] [LT F] (topo : List (Arc F)) (m f : ℕ) (h : ValidTopo topo m)
    (hl : EntersOnce topo m) :
    ∃ e x, firstPdf (unitHmm topo m f) = .ok (some e) ∧ lastPdf (unitHmm topo m f) = .ok (some x)
      ∧ f ≤ e ∧ e ≤ f + (m - 3) ∧ ∀ w, Accepts (unitHmm topo m f) w →
        w.head? = some e ∧ w.getLast? = some x ∧ w.IsChain (fun s t => t = e → s = e) ∧ ∀ s ∈ w, f ≤ s ∧ s ≤ f + (m - 3) := by
  have hinv : (unitHmm topo m f).Inv := by
    obtain ⟨a, b, hu⟩ := wellFormed_unit _ (unitHmm_good topo m f h).1
    exact hu.inv
  obtain ⟨en, hen, n1, n2, n3, n4⟩ := h.entry
  obtain ⟨ex, hex, x1, x2, x3, x4⟩ := h.exit
  have hsz := h.size
  refine ⟨f + (en.stop - 1), f + (ex.start - 1), ?_, ?_, by omega, by omega, ?_⟩
  · obtain ⟨e1, e2⟩ := findNext_single (unitHmm topo m f) hinv en hen (f + (en.stop - 1)) (by
      rw [unitHmm_state, if_neg (by omega)]
      exact ⟨by omega, rfl⟩) (fun b hb hs => n4 b hb (hs.trans n1))
    unfold firstPdf
    rw [show (unitHmm topo m f).startState = some en.start by rw [n1]; rfl, e1]
    simp only [e2]
  · have hr : (⟨ex.stop, ex.start, ex.weight⟩ : Arc F) ∈ (unitHmm topo m f).reversed.arcs :=
      List.mem_map.2 ⟨ex, hex, rfl⟩
    obtain ⟨e1, e2⟩ := findNext_single (unitHmm topo m f).reversed (reversed_inv _ hinv) ⟨ex.stop, ex.start, ex.weight⟩ hr
      (f + (ex.start - 1)) (by
        show (ex.start, _) ∈ (unitHmm topo m f).states
        rw [unitHmm_state, if_neg (by omega)]
        exact ⟨by omega, rfl⟩) (by
      intro b hb hbs
      obtain ⟨c, hc, rfl⟩ := List.mem_map.1 hb
      dsimp only at hbs
      rw [x4 c hc (hbs.trans x1)])
    unfold lastPdf findPrevious
    dsimp only at e1 e2
    rw [show (unitHmm topo m f).endState = some ex.stop by rw [x1]; rfl, e1]
    simp only
    rw [show (unitHmm topo m f).pdfOf ex.start = some (some (f + (ex.start - 1))) from e2]
  · rintro w ⟨s, e, hs, he, hr⟩
    cases hs
    cases he
    generalize hz : (0 : ℕ) = z at hr
    cases hr with
    | stop _ => omega
    | step a w w' ha hw hr =>
      have := n4 a ha hz.symm
      subst this
      obtain ⟨-, h4 | h4⟩ := unit_lab _ _ _ _ _ hw
      · obtain ⟨-, rfl⟩ := h4
        rw [List.nil_append]
        rcases unit_inner topo m f h hl ex x4 a hen n1 n2 _ _ hr .refl with ⟨h5, -⟩ | ⟨-, h6, h7, h8, h9⟩
        · omega
        · exact ⟨h6, h7, h8, h9⟩
      · omega

/-! ### The dictionaries of entry and exit pdfs -/

theorem entryExit_map [Mul F] [One F] (fp lp : Graph F → Option ℕ) (hmms : List (String × Graph F))
    (h : ∀ p ∈ hmms, firstPdf p.2 = .ok (fp p.2) ∧ lastPdf p.2 = .ok (lp p.2)) (hn : (hmms.map Prod.fst).Nodup)
    (st : List (String × Option ℕ) × List (String × Option ℕ)) (h1 : ∀ u ∈ hmms.map Prod.fst, u ∉ st.1.map Prod.fst)
    (h2 : ∀ u ∈ hmms.map Prod.fst, u ∉ st.2.map Prod.fst) :
    entryExit hmms st = .ok (st.1 ++ hmms.map (fun p => (p.1, fp p.2)), st.2 ++ hmms.map (fun p => (p.1, lp p.2))) := by
  induction hmms generalizing st with
  | nil => simp [entryExit]
  | cons p hmms ih =>
    obtain ⟨u, g⟩ := p
    obtain ⟨e1, e2⟩ := h (u, g) List.mem_cons_self
    dsimp only at e1 e2
    rw [List.map_cons, List.nodup_cons] at hn
    simp only [entryExit, e1, e2]
    rw [dictSet_new _ _ _ (h1 u (by simp)), dictSet_new _ _ _ (h2 u (by simp)),
      ih (fun p hp => h p (List.mem_cons_of_mem _ hp)) hn.2]
    · simp
    · intro v hv
      rw [List.map_append, List.mem_append, not_or]
      refine ⟨h1 v (List.mem_cons_of_mem _ hv), ?_⟩
      simp only [List.map_cons, List.map_nil, List.mem_cons, List.not_mem_nil, or_false]
      rintro rfl
      exact hn.1 hv
    · intro v hv
      rw [List.map_append, List.mem_append, not_or]
      refine ⟨h2 v (List.mem_cons_of_mem _ hv), ?_⟩
      simp only [List.map_cons, List.map_nil, List.mem_cons, List.not_mem_nil, or_false]
      rintro rfl
      exact hn.1 hv

/-- The units of an inventory seen as runs. -/
theorem inventory [Field F] [LT F] (hmms : List (String × Graph F)) (n : ℕ) (h : Inventory hmms n) :
    ∃ entry exit, entryExit hmms ([], []) = .ok (entry, exit) ∧ ((starts entry).map Prod.snd).Nodup
      ∧ (∀ p ∈ hmms, ∀ i q, (i, some q) ∈ p.2.states → q < n)
      ∧ ∀ u v, (∃ hmm, (u, hmm) ∈ hmms ∧ Accepts hmm v) → ∃ r : PhoneRun String, r.phone = u ∧ r.states = v
        ∧ r.Valid (starts entry) ∧ dictGet entry u = .ok (some r.start)
        ∧ ∃ x, dictGet exit u = .ok (some x) ∧ r.states.getLast? = some x := by
  have hex : ∀ p : {p // p ∈ hmms}, ∃ e x lo hi : ℕ, firstPdf p.1.2 = .ok (some e) ∧ lastPdf p.1.2 = .ok (some x) ∧ (lo ≤ e ∧ e ≤ hi)
      ∧ (∀ s, lo ≤ s → s ≤ hi → s ∈ p.1.2.states.filterMap Prod.snd)
      ∧ ∀ w, Accepts p.1.2 w → w.head? = some e ∧ w.getLast? = some x ∧ w.IsChain (fun s t => t = e → s = e)
        ∧ ∀ s ∈ w, lo ≤ s ∧ s ≤ hi := by
    rintro ⟨⟨u, g⟩, hp⟩
    obtain ⟨topo, m, f, rfl, h1, h2⟩ := h.units _ hp
    obtain ⟨e, x, q1, q2, q3, q4, q5⟩ := unit_word topo m f h1 h2
    refine ⟨e, x, f, f + (m - 3), q1, q2, ⟨q3, q4⟩, ?_, q5⟩
    intro s hs1 hs2
    have := h1.size
    refine List.mem_filterMap.2 ⟨(s - f + 1, some s), ?_, rfl⟩
    rw [unitHmm_state, if_neg (by omega)]
    exact ⟨by omega, by congr 1; omega⟩
  have hnd := h.pdfs ▸ List.nodup_range (n := n)
  rw [List.nodup_flatMap] at hnd
  have hdis : ∀ p ∈ hmms, ∀ q ∈ hmms, ∀ s, s ∈ p.2.states.filterMap Prod.snd → s ∈ q.2.states.filterMap Prod.snd → p = q := by
    intro p hp q hq s h1 h2
    by_contra hne
    have : Std.Symm (Function.onFun List.Disjoint fun p : String × Graph F => p.2.states.filterMap Prod.snd) :=
      ⟨fun _ _ h => List.Disjoint.symm h⟩
    exact hnd.2.forall hp hq hne h1 h2
  let fp : Graph F → Option ℕ := fun g => match firstPdf g with | .ok (some e) => some e | _ => none
  let lp : Graph F → Option ℕ := fun g => match lastPdf g with | .ok (some e) => some e | _ => none
  have hfp : ∀ (g : Graph F) (e : ℕ), firstPdf g = .ok (some e) → fp g = some e := by
    intro g e hg
    simp only [fp, hg]
  have hlp : ∀ (g : Graph F) (e : ℕ), lastPdf g = .ok (some e) → lp g = some e := by
    intro g e hg
    simp only [lp, hg]
  have hee := entryExit_map fp lp hmms (by
    intro p hp
    obtain ⟨e, x, lo, hi, q1, q2, -⟩ := hex ⟨p, hp⟩
    dsimp only at q1 q2
    rw [q1, q2, hfp _ _ q1, hlp _ _ q2]
    exact ⟨rfl, rfl⟩) h.names ([], []) (by simp) (by simp)
  rw [List.nil_append, List.nil_append] at hee
  have hst : ∀ u s, (u, s) ∈ starts (hmms.map fun p => (p.1, fp p.2)) ↔
      ∃ g, (u, g) ∈ hmms ∧ firstPdf g = .ok (some s) := by
    intro u s
    unfold starts
    rw [List.mem_filterMap]
    constructor
    · rintro ⟨it, hit, he⟩
      obtain ⟨p, hp, rfl⟩ := List.mem_map.1 hit
      obtain ⟨e, x, lo, hi, q1, -⟩ := hex ⟨p, hp⟩
      dsimp only at q1 he
      rw [hfp _ _ q1] at he
      simp only [Option.map_some, Option.some.injEq, Prod.mk.injEq] at he
      obtain ⟨rfl, rfl⟩ := he
      exact ⟨p.2, hp, q1⟩
    · rintro ⟨g, hg, hf⟩
      exact ⟨(u, fp g), List.mem_map.2 ⟨_, hg, rfl⟩, by rw [hfp _ _ hf]; rfl⟩
  have hstart : ∀ p ∈ hmms, ∀ e, firstPdf p.2 = .ok (some e) → e ∈ p.2.states.filterMap Prod.snd := by
    intro p hp e he
    obtain ⟨e', x, lo, hi, q1, -, q3, q4, -⟩ := hex ⟨p, hp⟩
    dsimp only at q1 q4
    rw [he] at q1
    have := Option.some.inj (Except.ok.inj q1)
    subst this
    exact q4 e q3.1 q3.2
  refine ⟨_, _, hee, ?_, ?_, ?_⟩
  · -- the entry pdfs are distinct
    have hk : ((starts (hmms.map fun p => (p.1, fp p.2))).map Prod.fst).Sublist (hmms.map Prod.fst) := by
      clear hst hee hex hdis hstart hnd h
      induction hmms with
      | nil => exact .slnil
      | cons p l ih =>
        unfold starts at ih ⊢
        rw [List.map_cons, List.filterMap_cons]
        dsimp only
        cases fp p.2 with
        | none => exact ih.cons _
        | some e => exact ih.cons_cons _
    have hnk := hk.nodup h.names
    refine List.Nodup.map_on ?_ (List.Nodup.of_map _ hnk)
    rintro ⟨u, s⟩ hu ⟨v, t⟩ hv (rfl : s = t)
    obtain ⟨g1, hg1, f1⟩ := (hst u s).1 hu
    obtain ⟨g2, hg2, f2⟩ := (hst v s).1 hv
    have := hdis _ hg1 _ hg2 s (hstart _ hg1 s f1) (hstart _ hg2 s f2)
    rw [show u = v from (Prod.ext_iff.1 this).1]
  · intro p hp i q hq
    have : q ∈ List.range n := by
      rw [← h.pdfs, List.mem_flatMap]
      exact ⟨p, hp, List.mem_filterMap.2 ⟨_, hq, rfl⟩⟩
    exact List.mem_range.1 this
  · rintro u v ⟨hmm, hu, hv⟩
    obtain ⟨e, x, lo, hi, q1, q2, q3, q4, q5⟩ := hex ⟨_, hu⟩
    dsimp only at q1 q2 q4 q5
    obtain ⟨w1, w2, w3, w4⟩ := q5 v hv
    cases v with
    | nil => cases w1
    | cons s v =>
      have hse : s = e := by simpa using w1
      subst hse
      refine ⟨⟨u, s, v⟩, rfl, rfl, ⟨(hst u s).2 ⟨hmm, hu, q1⟩, ?_⟩, ?_, x, ?_, w2⟩
      · refine List.IsChain.imp_of_mem_imp ?_ w3
        intro a b ha hb hab
        by_cases hbs : b ∈ (starts (hmms.map fun p => (p.1, fp p.2))).map Prod.snd
        · left
          obtain ⟨⟨u', b'⟩, hub, rfl⟩ := List.mem_map.1 hbs
          obtain ⟨g', hg', hf'⟩ := (hst _ _).1 hub
          have hwb := w4 b' hb
          have := hdis _ hu _ hg' b' (q4 b' hwb.1 hwb.2) (hstart _ hg' b' hf')
          have hgg : hmm = g' := (Prod.ext_iff.1 this).2
          subst hgg
          rw [hf'] at q1
          have hbe := Option.some.inj (Except.ok.inj q1)
          dsimp only at *
          rw [hbe, hab hbe]
        · exact Or.inr hbs
      · refine dictGet_of_mem _ _ _ (by rw [List.map_map]; exact h.names) ?_
        rw [← hfp _ _ q1]
        exact List.mem_map.2 ⟨_, hu, rfl⟩
      · refine dictGet_of_mem _ _ _ (by rw [List.map_map]; exact h.names) ?_
        rw [← hlp _ _ q2]
        exact List.mem_map.2 ⟨_, hu, rfl⟩

/-! ### Runs -/

theorem exists_runs (P : String → List ℕ → Prop) (Q : PhoneRun String → Prop)
    (h : ∀ u v, P u v → ∃ r : PhoneRun String, r.phone = u ∧ r.states = v ∧ Q r) (us : List String) (ws : List (List ℕ))
    (hw : List.Forall₂ P us ws) :
    ∃ runs : List (PhoneRun String), runs.map PhoneRun.phone = us ∧ runs.map PhoneRun.states = ws ∧ ∀ r ∈ runs, Q r := by
  induction hw with
  | nil => exact ⟨[], rfl, rfl, by simp⟩
  | cons hp _ ih =>
    obtain ⟨runs, h1, h2, h3⟩ := ih
    obtain ⟨r, r1, r2, r3⟩ := h _ _ hp
    refine ⟨r :: runs, by rw [List.map_cons, h1, r1], by rw [List.map_cons, h2, r2], ?_⟩
    intro x hx
    rcases List.mem_cons.1 hx with rfl | hx
    · exact r3
    · exact h3 x hx

/-- A run which ends in a start state has never left it. -/
theorem run_stays (S : List ℕ) (l : List ℕ) (a b : ℕ) (h : (a :: l).IsChain (fun a b => b = a ∨ b ∉ S))
    (hl : (a :: l).getLast? = some b) (hb : b ∈ S) : a = b ∧ ∀ s ∈ l, s = b := by
  induction l generalizing a with
  | nil =>
    have : a = b := by simpa using hl
    exact ⟨this, by simp⟩
  | cons c l ih =>
    rw [List.isChain_cons_cons] at h
    obtain ⟨rfl, h2⟩ := ih c h.2 (by rw [← hl, List.getLast?_cons_cons])
    refine ⟨(h.1.resolve_right fun hc => hc hb).symm, ?_⟩
    intro s hs
    rcases List.mem_cons.1 hs with rfl | hs
    · rfl
    · exact h2 s hs

theorem merge_runs (startPdf : List (String × ℕ)) (hnd : (startPdf.map Prod.snd).Nodup) (runs : List (PhoneRun String))
    (hv : ∀ r ∈ runs, r.Valid startPdf) :
    ∃ out : List (PhoneRun String), (∀ r ∈ out, r.Valid startPdf) ∧ Separated out
      ∧ out.flatMap PhoneRun.states = runs.flatMap PhoneRun.states
      ∧ Merged (runs.map PhoneRun.phone) (out.map PhoneRun.phone)
      ∧ out.flatMap (fun r => r.states.map fun _ => r.phone) = runs.flatMap (fun r => r.states.map fun _ => r.phone)
      ∧ (runs ≠ [] → out ≠ []) := by
  induction runs with
  | nil => exact ⟨[], by simp, List.IsChain.nil, rfl, .nil, rfl, id⟩
  | cons r runs ih =>
    obtain ⟨out, o1, o2, o3, o4, o5, o6⟩ := ih fun r hr => hv r (List.mem_cons_of_mem _ hr)
    have hr := hv r List.mem_cons_self
    cases out with
    | nil =>
      have : runs = [] := by
        by_contra hne
        exact o6 hne rfl
      subst this
      exact ⟨[r], by simpa using hr, List.IsChain.singleton _, by simp, .keep _ _ _ .nil, by simp, by simp⟩
    | cons r1 out =>
      by_cases hj : r.states.getLast? = some r1.start
      · have hr1 := o1 r1 List.mem_cons_self
        obtain ⟨t1, t2⟩ := run_stays _ r.rest r.start r1.start hr.inside hj (List.mem_map.2 ⟨_, hr1.enters, rfl⟩)
        have hph : (r.phone, r.start) = (r1.phone, r1.start) :=
          List.inj_on_of_nodup_map hnd hr.enters hr1.enters t1
        obtain ⟨hph, -⟩ := Prod.ext_iff.1 hph
        dsimp only at hph
        refine ⟨⟨r.phone, r.start, r.rest ++ r1.states⟩ :: out, ?_, ?_, ?_, ?_, ?_, by simp⟩
        · intro x hx
          rcases List.mem_cons.1 hx with rfl | hx
          · refine ⟨hr.enters, ?_⟩
            show (r.states ++ r1.states).IsChain _
            rw [List.isChain_append]
            refine ⟨hr.inside, hr1.inside, ?_⟩
            intro a ha b hb
            rw [hj] at ha
            left
            have hb' : r1.start = b := by simpa [PhoneRun.states] using hb
            have ha' : r1.start = a := by simpa using ha
            rw [← ha', ← hb']
          · exact o1 x (List.mem_cons_of_mem _ hx)
        · unfold Separated at o2 ⊢
          rw [List.isChain_cons] at o2 ⊢
          refine ⟨?_, o2.2⟩
          intro y hy
          have := o2.1 y hy
          intro hc
          apply this
          rw [← hc]
          show _ = (r.states ++ r1.states).getLast?
          rw [List.getLast?_append, PhoneRun.states, List.getLast?_eq_some_getLast (by simp)]
          rfl
        · rw [List.flatMap_cons, List.flatMap_cons, ← o3, List.flatMap_cons]
          show (r.states ++ r1.states) ++ _ = _
          rw [List.append_assoc]
        · rw [List.map_cons, List.map_cons] at *
          dsimp only
          rw [← hph] at o4
          cases hruns : runs.map PhoneRun.phone with
          | nil => rw [hruns] at o4; cases o4
          | cons u us =>
            rw [hruns] at o4
            have hu : u = r.phone := by
              clear hruns o3 o5 o6 hv
              generalize hA : u :: us = A at o4
              generalize hB : r.phone :: out.map PhoneRun.phone = B at o4
              induction o4 generalizing us with
              | nil => cases hA
              | keep => rw [List.cons.injEq] at hA hB; rw [hA.1, hB.1]
              | drop v vs o _ ih =>
                rw [List.cons.injEq] at hA
                obtain ⟨rfl, rfl⟩ := hA
                exact ih vs rfl hB
            rw [hu] at o4 ⊢
            exact .drop _ _ _ o4
        · rw [List.flatMap_cons, List.flatMap_cons, ← o5, List.flatMap_cons]
          show (r.states ++ r1.states).map _ ++ _ = _
          rw [List.map_append, List.append_assoc, hph]
      · refine ⟨r :: r1 :: out, ?_, ?_, ?_, ?_, ?_, by simp⟩
        · intro x hx
          rcases List.mem_cons.1 hx with rfl | hx
          · exact hr
          · exact o1 x hx
        · unfold Separated at o2 ⊢
          rw [List.isChain_cons_cons]
          exact ⟨hj, o2⟩
        · rw [List.flatMap_cons, o3, List.flatMap_cons]
        · exact .keep _ _ _ o4
        · rw [List.flatMap_cons, o5, List.flatMap_cons]

end DecodeCmd
end Verif
