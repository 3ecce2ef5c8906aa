import Verif.Lemmas.Duration
import Verif.Props.DecodeCmd
import Verif.Props.LoopTrain
import Verif.Props.PhoneLoop
import Verif.Lemmas.HMM
import Mathlib.Analysis.SpecificLimits.Normed

/-!
# C180: how long the units last
-/

namespace Verif.Props

open Verif Verif.Spec Verif.Pipeline Verif.DecodeCmd Verif.Decode Verif.LoopTrain Verif.PhoneLoop

variable {F : Type}

/-- What remains to be read from state `s` on. -/
theorem reads_remaining (topo : List (Arc F)) (n first : ℕ) (h : NoSkip topo) (s : ℕ) (w : List ℕ)
    (hr : Reads (unitHmm topo n first) (emitLab (unitHmm topo n first)) (n - 1) s w) : n - 1 - max s 1 ≤ w.length := by
  induction hr with
  | stop w hw => omega
  | step a w w' ha hl _ ih =>
    have h1 := h a ha
    rw [List.length_append]
    by_cases h0 : a.start = 0
    · omega
    · rcases hl with ⟨hm, rfl⟩ | ⟨p, hm, rfl⟩
      · simp only [unitHmm, List.mem_map, Prod.mk.injEq, List.mem_range] at hm
        obtain ⟨i, hi, rfl, h3⟩ := hm
        split at h3
        · simp only [List.length_nil]; omega
        · cases h3
      · simp only [List.length_cons, List.length_nil]; omega

/-- Waiting in a state with a loop. -/
theorem reads_wait (g : Graph F) (e : ℕ) (a : Arc F) (ha : a ∈ g.arcs) (hl : a.start = a.stop) (p : ℕ)
    (hp : (a.start, some p) ∈ g.states) (w : List ℕ) (h : Reads g (emitLab g) e a.start w) (m : ℕ) :
    Reads g (emitLab g) e a.start (List.replicate m p ++ w) := by
  induction m with
  | zero => simpa using h
  | succ m ih => exact Reads.step a [p] _ ha (.inr ⟨p, hp, rfl⟩) (hl ▸ ih)

/-- Going straight from a state to the end. -/
theorem reads_straight (topo : List (Arc F)) (n first : ℕ) (hs : ∀ i, i + 1 < n → ∃ a ∈ topo, a.start = i ∧ a.stop = i + 1)
    (j : ℕ) (hj : j + 1 < n) : ∃ w : List ℕ, w.length = j
      ∧ Reads (unitHmm topo n first) (emitLab (unitHmm topo n first)) (n - 1) (n - 1 - j) w := by
  induction j with
  | zero => exact ⟨[], rfl, .stop [] (.inl ⟨by simp [unitHmm]; omega, rfl⟩)⟩
  | succ j ih =>
    obtain ⟨w, h1, h2⟩ := ih (by omega)
    obtain ⟨a, ha, h3, h4⟩ := hs (n - 1 - (j + 1)) (by omega)
    refine ⟨[first + (a.start - 1)] ++ w, by simp [h1], ?_⟩
    rw [← h3]
    refine .step a [first + (a.start - 1)] w ha (.inr ⟨_, ?_, rfl⟩) ?_
    · simp only [unitHmm, List.mem_map, List.mem_range, Prod.mk.injEq]
      exact ⟨a.start, by omega, rfl, if_neg (by omega)⟩
    · rw [h4, show n - 1 - (j + 1) + 1 = n - 1 - j by omega]
      exact h2

/-- **C180 (units).** A unit whose topology never jumps over a state lasts at least as many frames as it has emitting
states; when it has all the arcs from a state to the next one and a loop on some emitting state, it may last any such
number of frames. -/
theorem C180_unit (topo : List (Arc F)) (n first : ℕ) (hn : 3 ≤ n) (h : NoSkip topo) :
    (∀ v, Accepts (unitHmm topo n first) v → n - 2 ≤ v.length)
    ∧ ((∀ i, i + 1 < n → ∃ a ∈ topo, a.start = i ∧ a.stop = i + 1) →
        (∃ a ∈ topo, a.start = a.stop ∧ 0 < a.start ∧ a.start < n - 1) →
        ∀ L, n - 2 ≤ L → ∃ v, Accepts (unitHmm topo n first) v ∧ v.length = L) := by
  constructor
  · rintro v ⟨s, e, hs, he, hr⟩
    cases Option.some.inj hs
    cases Option.some.inj he
    have := reads_remaining topo n first h 0 v hr
    omega
  · rintro hs ⟨l, hl, h1, h2, h3⟩ L hL
    have hgo : ∀ i, 0 < i → i ≤ l.start → ∃ w : List ℕ, w.length = (L - (n - 2)) + (n - 1 - i)
        ∧ Reads (unitHmm topo n first) (emitLab (unitHmm topo n first)) (n - 1) i w := by
      intro i hi hil
      obtain ⟨j, rfl⟩ : ∃ j, i = l.start - j := ⟨l.start - i, by omega⟩
      induction j with
      | zero =>
        obtain ⟨w, h4, h5⟩ := reads_straight topo n first hs (n - 1 - l.start) (by omega)
        rw [show n - 1 - (n - 1 - l.start) = l.start by omega] at h5
        have hp : (l.start, some (first + (l.start - 1))) ∈ (unitHmm topo n first).states := by
          simp only [unitHmm, List.mem_map, List.mem_range, Prod.mk.injEq]
          exact ⟨l.start, by omega, rfl, if_neg (by omega)⟩
        refine ⟨_, ?_, reads_wait _ _ l hl h1 _ hp w h5 (L - (n - 2))⟩
        rw [List.length_append, List.length_replicate, h4]
        omega
      | succ j ih =>
        by_cases hj : l.start ≤ j
        · omega
        · obtain ⟨w, h4, h5⟩ := ih (by omega) (by omega)
          obtain ⟨a, ha, h6, h7⟩ := hs (l.start - (j + 1)) (by omega)
          refine ⟨[first + (a.start - 1)] ++ w, by rw [List.length_append, h4, List.length_singleton]; clear ih h5; omega, ?_⟩
          rw [← h6]
          refine .step a [first + (a.start - 1)] w ha (.inr ⟨_, ?_, rfl⟩) ?_
          · simp only [unitHmm, List.mem_map, List.mem_range, Prod.mk.injEq]
            exact ⟨a.start, by omega, rfl, if_neg (by omega)⟩
          · rw [h7, show l.start - (j + 1) + 1 = l.start - j by omega]
            exact h5
    obtain ⟨w, h4, h5⟩ := hgo 1 (by omega) (by omega)
    obtain ⟨a, ha, h6, h7⟩ := hs 0 (by omega)
    refine ⟨[] ++ w, ⟨0, n - 1, rfl, rfl, ?_⟩, by rw [List.nil_append, h4]; omega⟩
    have := Reads.step (g := unitHmm topo n first) (lab := emitLab (unitHmm topo n first)) (e := n - 1) a [] w ha
      (.inl ⟨by simp only [unitHmm, List.mem_map, List.mem_range, Prod.mk.injEq]; exact ⟨0, by omega, h6.symm, if_pos (.inl rfl)⟩, rfl⟩)
      (by rw [h7]; exact h5)
    rwa [h6] at this

/-- **C180 (non-speech).** The non-speech unit of the recipes, which has five emitting states, lasts three frames or more, and
may last any such number of frames. -/
theorem C180_nonspeech {F : Type} [Field F] (first L : ℕ) :
    (∃ v, Accepts (unitHmm (nonSpeech (F := F)) 7 first) v ∧ v.length = L) ↔ 3 ≤ L := by
  have hst : ∀ i, 0 < i → i < 6 → (i, some (first + (i - 1))) ∈ (unitHmm (nonSpeech (F := F)) 7 first).states := by
    intro i h1 h2
    rw [unitHmm_state, if_neg (by omega)]
    exact ⟨by omega, rfl⟩
  constructor
  · rintro ⟨v, ⟨s, e, hs, he, hr⟩, rfl⟩
    cases Option.some.inj hs
    cases Option.some.inj he
    have hpot : ∀ a ∈ nonSpeech (F := F), [3, 3, 2, 2, 2, 1, 0].getD a.start 0
        ≤ [3, 3, 2, 2, 2, 1, 0].getD a.stop 0 + (if a.start = 0 then 0 else 1) := by
      simp [nonSpeech]
    have hend : ∀ a ∈ nonSpeech (F := F), a.start ≠ 6 := by simp [nonSpeech]
    have hgo : ∀ s v, Reads (unitHmm (nonSpeech (F := F)) 7 first) (emitLab (unitHmm (nonSpeech (F := F)) 7 first)) 6 s v →
        [3, 3, 2, 2, 2, 1, 0].getD s 0 ≤ v.length := by
      intro s v hr
      induction hr with
      | stop w hw => exact Nat.zero_le _
      | step a w w' ha hl _ ih =>
        have h1 := hpot a ha
        have h2 := hend a ha
        rw [List.length_append]
        obtain ⟨-, ⟨h3, rfl⟩ | ⟨h3, rfl⟩⟩ := unit_lab _ _ _ _ _ hl
        · rw [if_pos (by omega)] at h1
          simp only [List.length_nil]
          omega
        · rw [if_neg (by omega)] at h1
          simp only [List.length_singleton]
          omega
    exact hgo 0 v hr
  · intro hL
    have h5 : Reads (unitHmm (nonSpeech (F := F)) 7 first) (emitLab (unitHmm (nonSpeech (F := F)) 7 first)) 6 5 [first + 4] :=
      .step ⟨5, 6, 1/4⟩ [first + 4] [] (by simp [unitHmm, nonSpeech]) (.inr ⟨_, hst 5 (by omega) (by omega), rfl⟩)
        (.stop [] (.inl ⟨by simp [unitHmm], rfl⟩))
    have h4 : Reads (unitHmm (nonSpeech (F := F)) 7 first) (emitLab (unitHmm (nonSpeech (F := F)) 7 first)) 6 4
        [first + 3, first + 4] :=
      .step ⟨4, 5, 1/4⟩ [first + 3] [first + 4] (by simp [unitHmm, nonSpeech]) (.inr ⟨_, hst 4 (by omega) (by omega), rfl⟩) h5
    have h1 : Reads (unitHmm (nonSpeech (F := F)) 7 first) (emitLab (unitHmm (nonSpeech (F := F)) 7 first)) 6 1
        [first, first + 3, first + 4] :=
      .step ⟨1, 4, 1/4⟩ [first] [first + 3, first + 4] (by simp [unitHmm, nonSpeech])
        (.inr ⟨_, hst 1 (by omega) (by omega), rfl⟩) h4
    have hw := reads_wait (unitHmm (nonSpeech (F := F)) 7 first) 6 ⟨1, 1, 1/4⟩ (by simp [unitHmm, nonSpeech]) rfl first
      (hst 1 (by omega) (by omega)) _ h1 (L - 3)
    refine ⟨_, ⟨0, 6, rfl, rfl, .step ⟨0, 1, 1⟩ [] _ (by simp [unitHmm, nonSpeech]) (.inl ⟨by simp [unitHmm], rfl⟩) hw⟩, ?_⟩
    simp only [List.nil_append, List.length_append, List.length_replicate, List.length_cons, List.length_nil]
    omega

/-- Saying units takes at least the sum of their shortest durations. -/
theorem spoken_atLeast (hmms : List (String × Graph F)) (d : String → ℕ) (hd : AtLeast hmms d) (us : List String)
    (ws : List (List ℕ)) (h : Spoken hmms us ws) :
    List.Forall₂ (fun u v => d u ≤ v.length) us ws ∧ (us.map d).sum ≤ ws.flatten.length := by
  induction h with
  | nil => exact ⟨.nil, by simp⟩
  | cons h1 _ ih =>
    obtain ⟨hmm, hm, ha⟩ := h1
    have := hd _ hm _ ha
    dsimp only at this
    refine ⟨.cons this ih.1, ?_⟩
    have := ih.2
    simp only [List.map_cons, List.sum_cons, List.flatten_cons, List.length_append]
    omega

/-- Merging repeated units shortens the sum. -/
theorem merged_sum (d : String → ℕ) (us out : List String) (h : Merged us out) : (out.map d).sum ≤ (us.map d).sum := by
  induction h with
  | nil => simp
  | keep u us out _ ih => simp only [List.map_cons, List.sum_cons]; omega
  | drop u us out _ ih => simp only [List.map_cons, List.sum_cons] at ih ⊢; omega

theorem blocks_eq (us : List String) (ws : List (List ℕ)) :
    (List.zipWith (fun u v => v.map fun _ => u) us ws).flatten
      = ((List.zipWith (fun u v => (u, v.length)) us ws).flatMap fun b => List.replicate b.2 b.1) := by
  induction us generalizing ws with
  | nil => simp
  | cons u us ih =>
    cases ws with
    | nil => simp
    | cons w ws =>
      rw [List.zipWith_cons_cons, List.zipWith_cons_cons, List.flatten_cons, List.flatMap_cons, ih, List.map_const']

theorem blocks_units (d : String → ℕ) (us : List String) (ws : List (List ℕ))
    (h : List.Forall₂ (fun u v => d u ≤ v.length) us ws) :
    (List.zipWith (fun u v => (u, v.length)) us ws).map Prod.fst = us := by
  induction h with
  | nil => rfl
  | cons _ _ ih => rw [List.zipWith_cons_cons, List.map_cons, ih]

theorem blocks_atLeast (d : String → ℕ) (us : List String) (ws : List (List ℕ))
    (h : List.Forall₂ (fun u v => d u ≤ v.length) us ws) :
    ∀ b ∈ List.zipWith (fun u v => (u, v.length)) us ws, d b.1 ≤ b.2 := by
  induction h with
  | nil => simp
  | cons h1 _ ih =>
    intro b hb
    rcases List.mem_cons.1 hb with rfl | hb
    · exact h1
    · exact ih b hb

/-- **C180 (free decoding).** With the graph of the phone loop over the units of an inventory, each unit needing at least `d u`
frames: the labels printed for the frames are blocks of at least `d u` times the same unit `u`, the units printed are
those of the blocks up to units merged with their own repetition, and never need more frames than the utterance has. -/
theorem C180_decode (units : List (String × String)) (group : Option String) (hmms : List (String × Graph ℝ)) (n : ℕ)
    (h : Inventory hmms n) (hsp : ∀ u ∈ units, u.1 ∉ ["\\<s\\>", "\\</s\\>", "#1"])
    (hperm : (hmms.map Prod.fst).Perm (units.map Prod.fst)) (d : String → ℕ) (hd : AtLeast hmms d) :
    ∃ loop dg entry exit c, mkphoneloopgraph units group = .ok loop ∧ mkdecodegraph loop hmms = .ok (dg, entry, exit)
      ∧ dg.compile = .ok c
      ∧ ∀ us0 ws0, us0 ≠ [] → LoopSeq units group us0 → Spoken hmms us0 ws0 → ∃ g, logGraph c = .ok g
        ∧ ∀ (am : Argmax), (∀ k, IsArgmax (am k)) → ∀ m : HModel, m.graph = g → m.nPdfs = n → m.startPdf = entry →
          ∀ (scale : ℝ) (x : Feats), x.n = ws0.flatten.length →
          ∃ path, decode am m scale none x = .ok path
            ∧ ∃ (blocks : List (String × ℕ)) (out : List String), (∀ b ∈ blocks, d b.1 ≤ b.2)
                ∧ state2phone (starts m.startPdf) true path = .ok (blocks.flatMap fun b => List.replicate b.2 b.1)
                ∧ state2phone (starts m.startPdf) false path = .ok out
                ∧ Merged (blocks.map Prod.fst) out ∧ (out.map d).sum ≤ x.n := by
  obtain ⟨loop, dg, entry, exit, c, h1, h2, h3, h4⟩ := C153_free units group hmms n h hsp hperm
  refine ⟨loop, dg, entry, exit, c, h1, h2, h3, fun us0 ws0 a1 a2 a3 => ?_⟩
  obtain ⟨g, g1, g2⟩ := h4 us0 ws0 a1 a2 a3
  refine ⟨g, g1, fun am ham m m1 m2 m3 scale x hx => ?_⟩
  obtain ⟨us, ws, -, q2, q3, q4, q5, ⟨out, q6, q7, -⟩, -⟩ := g2 am ham m m1 m2 m3 scale x hx
  obtain ⟨b1, b2⟩ := spoken_atLeast hmms d hd us ws q2
  refine ⟨_, q4, _, out, blocks_atLeast d us ws b1, ?_, q6, ?_, ?_⟩
  · rw [q5, blocks_eq]
  · rwa [blocks_units d us ws b1]
  · exact (merged_sum d us out q7).trans (q3 ▸ b2)

/-- **C180 (free decoding, trained phone loop).** The same after any history of updates of the unit weights. -/
theorem C180_trained (units : List (String × String)) (group : Option String) (hmms : List (String × Graph ℝ)) (n : ℕ)
    (h : Inventory hmms n) (hsp : ∀ u ∈ units, u.1 ∉ ["\\<s\\>", "\\</s\\>", "#1"])
    (hperm : (hmms.map Prod.fst).Perm (units.map Prod.fst)) (hne : units ≠ [])
    (hgrp : ∀ G, group = some G → ∃ a, (a, G) ∈ units) (hsay : ∀ p ∈ hmms, ∃ v, Accepts p.2 v)
    (htwo : 2 ≤ hmms.length ∨ ∀ p ∈ hmms, ∀ v, Accepts p.2 v → v.head? ≠ v.getLast?)
    (d : String → ℕ) (hd : AtLeast hmms d) :
    ∃ loop dg entry exit c g, mkphoneloopgraph units group = .ok loop ∧ mkdecodegraph loop hmms = .ok (dg, entry, exit)
      ∧ dg.compile = .ok c ∧ logGraph c = .ok g
      ∧ ∀ history : List (ℕ → ℕ → ℝ), (∀ W ∈ history, ∀ i j, W i j ≤ 0) →
        ∃ g', trainedGraph g entry exit history = .ok g'
          ∧ ∀ (am : Argmax), (∀ k, IsArgmax (am k)) → ∀ m : HModel, m.graph = g' → m.nPdfs = n → m.startPdf = entry →
            ∀ (scale : ℝ) (x : Feats), (∃ us ws, us ≠ [] ∧ LoopSeq units group us ∧ Spoken hmms us ws ∧ x.n = ws.flatten.length) →
            ∃ path, decode am m scale none x = .ok path
              ∧ ∃ (blocks : List (String × ℕ)) (out : List String), (∀ b ∈ blocks, d b.1 ≤ b.2)
                  ∧ state2phone (starts m.startPdf) true path = .ok (blocks.flatMap fun b => List.replicate b.2 b.1)
                  ∧ state2phone (starts m.startPdf) false path = .ok out
                  ∧ Merged (blocks.map Prod.fst) out ∧ (out.map d).sum ≤ x.n := by
  obtain ⟨loop, dg, entry, exit, c, g, h1, h2, h3, h4, h5⟩ := C156_decode_partial units group hmms n h hsp hperm hne hgrp hsay htwo
  refine ⟨loop, dg, entry, exit, c, g, h1, h2, h3, h4, fun history hh => ?_⟩
  obtain ⟨g', g1, g2⟩ := h5 history hh
  refine ⟨g', g1, fun am ham m m1 m2 m3 scale x hx => ?_⟩
  obtain ⟨us, ws, -, q2, q3, q4, q5, out, q6, q7, -⟩ := g2 am ham m m1 m2 m3 scale x hx
  obtain ⟨b1, b2⟩ := spoken_atLeast hmms d hd us ws q2
  refine ⟨_, q4, _, out, blocks_atLeast d us ws b1, ?_, q6, ?_, ?_⟩
  · rw [q5, blocks_eq]
  · rwa [blocks_units d us ws b1]
  · exact (merged_sum d us out q7).trans (q3 ▸ b2)

/-! ## The counts of the units -/

theorem lexp_ne_bot {x : LogR} (h : lexp x ≠ 0) : x ≠ ⊥ := by
  rintro rfl
  exact h rfl

/-- The phones entered along a possible state sequence fit in the frames. -/
theorem entries_fit {P n m : ℕ} (g : CGraph n) (starts : Fin P → Fin n) (ends : List (Fin n)) (need : Fin n → ℕ)
    (h : Needs g starts ends need) (llhs : Fin (m + 1) → Frame n) (p : Fin (m + 1) → Fin n) (hp : pathWeight g llhs p ≠ 0) :
    ∑ j, (entries ends (starts j) p : ℝ) * need (starts j) ≤ m + 1 := by
  unfold pathWeight at hp
  have hf : g.final (p (Fin.last m)) ≠ ⊥ := lexp_ne_bot fun h0 => hp (by rw [h0, mul_zero])
  have ht : ∀ t : Fin m, g.trans (p t.castSucc) (p t.succ) ≠ ⊥ := fun t => lexp_ne_bot fun h0 => hp (by
    rw [Finset.prod_eq_zero (Finset.mem_univ t) h0]; simp)
  have hone : ∀ i : Fin n, ∑ j, (if i = starts j then (need (starts j) : ℝ) else 0) ≤ need i := by
    intro i
    by_cases hi : ∃ j, i = starts j
    · obtain ⟨j, rfl⟩ := hi
      rw [Finset.sum_eq_single j (fun k _ hk => if_neg fun e => hk (h.inj e).symm) (by simp), if_pos rfl]
    · rw [Finset.sum_eq_zero (fun j _ => if_neg fun e => hi ⟨j, e⟩)]
      exact Nat.cast_nonneg _
  have hstep : ∀ t : Fin m, ∑ j, (if p t.castSucc ∈ ends ∧ p t.succ = starts j then (need (starts j) : ℝ) else 0)
      ≤ 1 + need (p t.succ) - need (p t.castSucc) := by
    intro t
    by_cases he : p t.castSucc ∈ ends
    · simp only [he, true_and]
      have h1 := hone (p t.succ)
      have h2 : (need (p t.castSucc) : ℝ) ≤ 1 := by exact_mod_cast h.leave _ he
      linarith
    · simp only [he, false_and, if_false, Finset.sum_const_zero]
      have : (need (p t.castSucc) : ℝ) ≤ need (p t.succ) + 1 := by exact_mod_cast h.step _ _ (ht t)
      linarith
  have hsplit : ∑ j, (entries ends (starts j) p : ℝ) * need (starts j)
      = ∑ j, (if p 0 = starts j then (need (starts j) : ℝ) else 0)
        + ∑ t : Fin m, ∑ j, (if p t.castSucc ∈ ends ∧ p t.succ = starts j then (need (starts j) : ℝ) else 0) := by
    rw [Finset.sum_comm (s := (Finset.univ : Finset (Fin m))), ← Finset.sum_add_distrib]
    refine Finset.sum_congr rfl fun j _ => ?_
    unfold entries
    push_cast
    rw [add_mul, Finset.card_filter, Nat.cast_sum, Finset.sum_mul]
    congr 1
    · split <;> simp
    · refine Finset.sum_congr rfl fun t _ => ?_
      split <;> simp
  have htele : ∑ t : Fin m, ((1 : ℝ) + need (p t.succ) - need (p t.castSucc)) = m + need (p (Fin.last m)) - need (p 0) := by
    have e1 := Fin.sum_univ_succ fun t : Fin (m + 1) => (need (p t) : ℝ)
    have e2 := Fin.sum_univ_castSucc fun t : Fin (m + 1) => (need (p t) : ℝ)
    rw [Finset.sum_sub_distrib, Finset.sum_add_distrib]
    simp only [Finset.sum_const, Finset.card_univ, Fintype.card_fin, nsmul_eq_mul, mul_one]
    linarith
  have hl : (need (p (Fin.last m)) : ℝ) ≤ 1 := by exact_mod_cast h.final _ hf
  rw [hsplit]
  have h1 := Finset.sum_le_sum fun t (_ : t ∈ Finset.univ) => hstep t
  rw [htele] at h1
  have h2 := hone (p 0)
  linarith

/-- **C180 (counts).** The counts of the phones from which the weights of the phone loop are trained: weighted by the
numbers of frames the phones need, they never exceed the number of frames of the utterance, and when all the phones need
`d` frames there are at most `1 / d` of them per frame. -/
theorem C180_counts {P n m : ℕ} (g : CGraph n) (starts : Fin P → Fin n) (ends : List (Fin n)) (hnd : ends.Nodup)
    (need : Fin n → ℕ) (h : Needs g starts ends need) (llhs : Fin (m + 1) → Frame n) (hev : 0 < evidence g llhs) :
    ∑ j, phoneCounts starts ends (fun s => (statePosts g llhs 0 s).getD 0) (transPosts g llhs) j * need (starts j) ≤ m + 1
    ∧ ∀ d : ℕ, 0 < d → (∀ j, d ≤ need (starts j)) →
      ∑ j, phoneCounts starts ends (fun s => (statePosts g llhs 0 s).getD 0) (transPosts g llhs) j ≤ (m + 1) / d := by
  have hw : ∀ p, 0 ≤ pathWeight g llhs p := fun p => by
    unfold pathWeight
    exact mul_nonneg (mul_nonneg (mul_nonneg (lexp_nonneg _) (Finset.prod_nonneg fun _ _ => lexp_nonneg _))
      (Finset.prod_nonneg fun _ _ => lexp_nonneg _)) (lexp_nonneg _)
  have hmain : ∑ j, phoneCounts starts ends (fun s => (statePosts g llhs 0 s).getD 0) (transPosts g llhs) j * need (starts j)
      ≤ m + 1 := by
    simp only [C21_counts_are_expected_entries starts ends hnd g llhs hev, Finset.sum_mul]
    rw [Finset.sum_comm]
    calc ∑ p, ∑ j, pathWeight g llhs p / evidence g llhs * (entries ends (starts j) p : ℝ) * need (starts j)
        = ∑ p, pathWeight g llhs p / evidence g llhs * ∑ j, (entries ends (starts j) p : ℝ) * need (starts j) := by
          refine Finset.sum_congr rfl fun p _ => ?_
          rw [Finset.mul_sum]
          exact Finset.sum_congr rfl fun j _ => mul_assoc _ _ _
      _ ≤ ∑ p, pathWeight g llhs p / evidence g llhs * (m + 1) := by
          refine Finset.sum_le_sum fun p _ => ?_
          by_cases h0 : pathWeight g llhs p = 0
          · rw [h0]; simp
          · exact mul_le_mul_of_nonneg_left (entries_fit g starts ends need h llhs p h0) (div_nonneg (hw p) hev.le)
      _ = m + 1 := by
          rw [← Finset.sum_mul, ← Finset.sum_div]
          change evidence g llhs / evidence g llhs * _ = _
          rw [div_self hev.ne', one_mul]
  refine ⟨hmain, fun d hd hdn => ?_⟩
  have hnn : ∀ j, 0 ≤ phoneCounts starts ends (fun s => (statePosts g llhs 0 s).getD 0) (transPosts g llhs) j := by
    intro j
    rw [C21_counts_are_expected_entries starts ends hnd g llhs hev]
    exact Finset.sum_nonneg fun p _ => mul_nonneg (div_nonneg (hw p) hev.le) (Nat.cast_nonneg _)
  have hd' : (0 : ℝ) < d := by exact_mod_cast hd
  rw [le_div_iff₀ hd', Finset.sum_mul]
  refine (Finset.sum_le_sum fun j _ => ?_).trans hmain
  exact mul_le_mul_of_nonneg_left (by exact_mod_cast hdn j) (hnn j)

/-! ## The law of the durations -/

theorem choose_step (a b : ℝ) (t s : ℕ) :
    ((t + 1).choose (s + 1) : ℝ) * a ^ (t + 1 - (s + 1)) * b ^ (s + 1)
      = (t.choose (s + 1) * a ^ (t - (s + 1)) * b ^ (s + 1)) * a + (t.choose s * a ^ (t - s) * b ^ s) * b := by
  rw [Nat.choose_succ_succ, Nat.add_sub_add_right]
  rcases lt_or_ge s t with h | h
  · obtain ⟨r, rfl⟩ : ∃ r, t = s + 1 + r := ⟨t - (s + 1), by omega⟩
    rw [show s + 1 + r - (s + 1) = r by omega, show s + 1 + r - s = r + 1 by omega]
    push_cast
    ring
  · rw [Nat.choose_eq_zero_of_lt (show t < s + 1 by omega)]
    push_cast
    ring

/-- The forward probabilities along a row of states. -/
theorem row_alpha {k n : ℕ} (g : CGraph (k + 1)) (a b f : ℝ) (h : Row g a b f) (t : Fin (n + 1)) (s : Fin (k + 1)) :
    lexp (logAlphas g (fun (_ : Fin (n + 1)) _ => 0) t s) = (t.val.choose s.val : ℝ) * a ^ (t.val - s.val) * b ^ s.val := by
  induction t using Fin.induction generalizing s with
  | zero =>
    have : logAlphas g (fun (_ : Fin (n + 1)) _ => 0) 0 s = g.init s := by
      simp [logAlphas]
    rw [this, h.init]
    rcases Nat.eq_zero_or_pos s.val with hs | hs
    · simp [hs]
    · rw [if_neg (by omega), Fin.val_zero, Nat.choose_eq_zero_of_lt hs]
      simp
  | succ i ih =>
    have : logAlphas g (fun (_ : Fin (n + 1)) _ => 0) i.succ s
        = lse (fun j => logAlphas g (fun (_ : Fin (n + 1)) _ => 0) i.castSucc j + g.trans j s) := by
      simp [logAlphas]
    rw [this, lexp_lse]
    simp only [lexp_add, ih, h.trans, Fin.val_castSucc, Fin.val_succ]
    obtain ⟨s, hs⟩ := s
    dsimp only
    rw [Fin.sum_univ_eq_sum_range (fun j => ((i.val.choose j : ℝ) * a ^ (i.val - j) * b ^ j)
      * (if s = j then a else if s = j + 1 then b else 0)) (k + 1)]
    cases s with
    | zero =>
      rw [Finset.sum_eq_single 0 (by intro j _ hj; rw [if_neg (by omega), if_neg (by omega), mul_zero])
        (by intro hh; exact absurd (Finset.mem_range.2 (by omega)) hh)]
      simp [pow_succ]
    | succ s =>
      rw [choose_step, Finset.sum_eq_add (s + 1) s (by omega)
        (by intro j _ hj; rw [if_neg (by omega), if_neg (by omega), mul_zero])
        (by intro hh; exact absurd (Finset.mem_range.2 (by omega)) hh)
        (by intro hh; exact absurd (Finset.mem_range.2 (by omega)) hh)]
      rw [if_pos rfl, if_neg (by omega), if_pos rfl]

/-- **C180 (law).** The probability given by the forward algorithm to lasting `n + 1` frames in a row of `k + 1` states
is negative binomial, up to the final probability. -/
theorem C180_law {k n : ℕ} (g : CGraph (k + 1)) (a b f : ℝ) (h : Row g a b f) :
    lasting g n = (n.choose k : ℝ) * a ^ (n - k) * b ^ k * f := by
  unfold lasting
  rw [← lexp_lognorm g _ (Fin.last n)]
  unfold lognorm
  rw [lexp_lse]
  have hb : ∀ s, logBetas g (fun (_ : Fin (n + 1)) _ => 0) (Fin.last n) s = g.final s := by
    intro s; simp [logBetas]
  simp only [lexp_add, hb, h.final, row_alpha g a b f h, Fin.val_last]
  rw [Finset.sum_eq_single (Fin.last k)]
  · simp
  · intro j _ hj
    rw [if_neg (fun h' : j.val = k => hj (Fin.ext h')), mul_zero]
  · simp

/-- **C180 (mean).** When a state is kept with probability `a < 1` and left with probability `1 - a`: the probabilities
of all the durations add up to `f / (1 - a)`, which is one when the last state is left like the other ones, and the mean
duration is `(k + 1) / (1 - a)` frames whatever the final probability. -/
theorem C180_mean {k : ℕ} (g : CGraph (k + 1)) (a f : ℝ) (ha : 0 ≤ a) (ha1 : a < 1) (h : Row g a (1 - a) f) :
    HasSum (fun n : ℕ => lasting g n) (f / (1 - a))
    ∧ HasSum (fun n : ℕ => (n + 1 : ℝ) * lasting g n) ((k + 1) / (1 - a) * (f / (1 - a))) := by
  have h1 : (0 : ℝ) < 1 - a := by linarith
  have hn : ‖a‖ < 1 := by rw [Real.norm_eq_abs, abs_of_nonneg ha]; exact ha1
  have hz : ∀ (F : ℕ → ℝ) (S : ℝ), (∀ n < k, F n = 0) → HasSum (fun r => F (r + k)) S → HasSum F S := by
    intro F S h0 hF
    have := (hasSum_nat_add_iff (f := F) k).1 hF
    rwa [Finset.sum_eq_zero (fun i hi => h0 i (Finset.mem_range.1 hi)), add_zero] at this
  have hlow : ∀ n < k, lasting g n = 0 := by
    intro n hnk
    rw [C180_law g a (1 - a) f h, Nat.choose_eq_zero_of_lt hnk]
    simp
  have hsum : ∀ (G H : ℕ → ℝ) (S T : ℝ), HasSum G S → (∀ r, H r = G r) → T = S → HasSum H T := by
    rintro G H S T hG hH rfl
    rwa [funext hH]
  constructor
  · refine hz _ _ hlow ?_
    refine hsum _ _ _ _ ((hasSum_choose_mul_geometric_of_norm_lt_one k hn).mul_right ((1 - a) ^ k * f)) (fun r => ?_) ?_
    · rw [C180_law g a (1 - a) f h, Nat.add_sub_cancel]
      ring
    · field_simp
      ring
  · refine hz _ _ (fun n hnk => by rw [hlow n hnk, mul_zero]) ?_
    refine hsum _ _ _ _ ((hasSum_choose_mul_geometric_of_norm_lt_one (k + 1) hn).mul_right ((k + 1) * (1 - a) ^ k * f))
      (fun r => ?_) ?_
    · rw [C180_law g a (1 - a) f h, Nat.add_sub_cancel]
      have := Nat.add_one_mul_choose_eq (r + k) k
      have hc : ((r + k : ℕ) + 1 : ℝ) * ((r + k).choose k : ℝ) = ((r + (k + 1)).choose (k + 1) : ℝ) * (k + 1) := by
        exact_mod_cast this
      calc ((r + k : ℕ) + 1 : ℝ) * (((r + k).choose k : ℝ) * a ^ r * (1 - a) ^ k * f)
          = (((r + k : ℕ) + 1 : ℝ) * ((r + k).choose k : ℝ)) * (a ^ r * (1 - a) ^ k * f) := by ring
        _ = _ := by rw [hc]; ring
    · field_simp
      ring

/-- **C180 (compiled units).** The graph compiled from a unit with `k + 1` states in a row, kept with the weight `a < 1` and
left with any positive weight: the duration has the mean `(k + 1) / (1 - a)`, but its probabilities add up to
`1 / (1 - a)` and not to one, the probability of leaving the last state being normalised to one. -/
theorem C180_compiled (topo : List (Arc ℝ)) (k first : ℕ) (a b : ℝ) (h : RowTopo topo k a b) (ha : 0 < a) (ha1 : a < 1)
    (hb : 0 < b) : ∃ c g, (unitHmm topo (k + 3) first).compile = .ok c ∧ logGraph c = .ok g
      ∧ (∀ n, lasting g.graph n = (n.choose k : ℝ) * a ^ (n - k) * (1 - a) ^ k)
      ∧ HasSum (fun n : ℕ => lasting g.graph n) (1 / (1 - a))
      ∧ HasSum (fun n : ℕ => (n + 1 : ℝ) * lasting g.graph n) ((k + 1) / (1 - a) * (1 / (1 - a))) := by
  obtain ⟨c, g, h1, h2, rfl, h4⟩ := row_compiled h ha ha1 hb first
  refine ⟨c, g, h1, h2, fun n => ?_, C180_mean g.graph a 1 ha.le ha1 h4⟩
  rw [C180_law g.graph _ _ _ h4, mul_one]

/-! ## Examples -/

-- the two units of the demonstration need two frames and one frame
example : AtLeast demoInv (fun u => if u = "a" then 2 else 1) := by
  intro p hp v hv
  simp only [demoInv, List.mem_cons, List.not_mem_nil, or_false] at hp
  rcases hp with rfl | rfl
  · exact (C180_unit topoTwo 4 0 (by omega) (by simp [NoSkip, topoTwo])).1 v hv
  · exact (C180_unit topoOne 3 2 (by omega) (by simp [NoSkip, topoOne])).1 v hv

/-- The topology of the speech units in `recipes/aud/conf/hmm.yml`. -/
def topoRecipe : List (Arc ℚ) :=
  [⟨0, 1, 1⟩, ⟨1, 1, 3/4⟩, ⟨1, 2, 1/4⟩, ⟨2, 2, 3/4⟩, ⟨2, 3, 1/4⟩, ⟨3, 3, 3/4⟩, ⟨3, 4, 1/4⟩]

-- it lasts three frames or any longer time
example (L : ℕ) : (∃ v, Accepts (unitHmm topoRecipe 5 0) v ∧ v.length = L) ↔ 3 ≤ L := by
  have h := C180_unit topoRecipe 5 0 (by omega) (by simp [NoSkip, topoRecipe])
  constructor
  · rintro ⟨v, h1, rfl⟩
    exact h.1 v h1
  · intro hL
    refine h.2 (fun i hi => ?_) ⟨⟨1, 1, 3/4⟩, by simp [topoRecipe], rfl, by simp, by simp⟩ L hL
    simp only [topoRecipe, List.mem_cons, List.not_mem_nil, or_false, exists_eq_or_imp, exists_eq_left]
    omega

-- compiled, it is a row of three states whose final probability is one
example : (unitHmm topoRecipe 5 0).compile.map (fun c => (c.init.map (fun p => (List.range 3).map p),
      c.final.map (fun p => (List.range 3).map p), (List.range 3).map (fun i => (List.range 3).map (c.trans i))))
    = .ok (some [1, 0, 0], some [0, 0, 1], [[3/4, 1/4, 0], [0, 3/4, 1/4], [0, 0, 3/4]]) := by
  decide +kernel

/-- The same graph over the reals. -/
noncomputable def rowRecipe (f : ℝ) : CGraph 3 where
  init i := llog (if i.val = 0 then 1 else 0)
  final i := llog (if i.val = 2 then f else 0)
  trans i j := llog (if j.val = i.val then 3/4 else if j.val = i.val + 1 then 1 - 3/4 else 0)

theorem rowRecipe_row (f : ℝ) (hf : 0 ≤ f) : Row (k := 2) (rowRecipe f) (3/4) (1 - 3/4) f := by
  refine ⟨fun i => ?_, fun i j => ?_, fun i => ?_⟩
  · exact lexp_llog (by split <;> norm_num)
  · exact lexp_llog (by split <;> [norm_num; (split <;> norm_num)])
  · exact lexp_llog (by split <;> [exact hf; exact le_rfl])

-- a unit lasts twelve frames on average; with the final probability of the compiled graph the durations have a total
-- weight of four
example : HasSum (fun n : ℕ => lasting (rowRecipe 1) n) 4 ∧ HasSum (fun n : ℕ => (n + 1 : ℝ) * lasting (rowRecipe 1) n) (12 * 4) := by
  have h := C180_mean (k := 2) (rowRecipe 1) (3/4) 1 (by norm_num) (by norm_num) (rowRecipe_row 1 (by norm_num))
  norm_num at h ⊢
  exact h

/-- The topology of the recipe over the reals, the weights of the arcs not being normalised. -/
noncomputable def topoReal : List (Arc ℝ) :=
  [⟨0, 1, 1⟩, ⟨1, 1, 3/4⟩, ⟨1, 2, 2⟩, ⟨2, 2, 3/4⟩, ⟨2, 3, 2⟩, ⟨3, 3, 3/4⟩, ⟨3, 4, 2⟩]

theorem topoReal_row : RowTopo topoReal 2 (3/4) 2 := by
  refine ⟨⟨by decide, by simp [topoReal], ?_, by simp [topoReal], by simp [topoReal], ⟨⟨0, 1, 1⟩, by simp [topoReal]⟩,
    ⟨⟨3, 4, 2⟩, by simp [topoReal]⟩⟩, by simp [topoReal], ?_, ?_⟩
  all_goals
    intro i
    simp only [topoReal, List.mem_cons, List.not_mem_nil, or_false, exists_eq_or_imp, exists_eq_left]
    intros
    have : i = 0 ∨ i = 1 ∨ i = 2 ∨ i = 3 ∨ i = 4 := by omega
    rcases this with rfl | rfl | rfl | rfl | rfl <;> simp at *

-- twelve frames on average
example : ∃ c g, (unitHmm topoReal 5 0).compile = .ok c ∧ logGraph c = .ok g
    ∧ HasSum (fun n : ℕ => lasting g.graph n) 4 ∧ HasSum (fun n : ℕ => (n + 1 : ℝ) * lasting g.graph n) (12 * 4) := by
  obtain ⟨c, g, h1, h2, -, h3⟩ := C180_compiled topoReal 2 0 _ _ topoReal_row (by norm_num) (by norm_num) (by norm_num)
  refine ⟨c, g, h1, h2, ?_⟩
  norm_num at h3 ⊢
  exact h3

/-- A phone loop of a phone with the states 0 and 1 and of a phone with the state 2. -/
noncomputable def loopRow : CGraph 3 where
  init i := if i = 1 then ⊥ else (0 : ℝ)
  final i := if i = 0 then ⊥ else (0 : ℝ)
  trans i j := if (i = 0 ∧ j = 2) ∨ (i = 2 ∧ j = 1) then ⊥ else (0 : ℝ)

theorem loopRow_needs : Needs loopRow ![0, 2] [1, 2] ![2, 1, 1] := by
  refine ⟨by decide, ?_, by decide, ?_⟩
  · intro a b _
    revert a b
    decide
  · intro i hi
    fin_cases i
    · exact absurd rfl hi
    · decide
    · decide

-- in any utterance, twice the count of the first phone and the count of the second one are at most the number of frames
example {m : ℕ} (llhs : Fin (m + 1) → Frame 3) (hev : 0 < evidence loopRow llhs) :
    phoneCounts ![0, 2] [1, 2] (fun s => (statePosts loopRow llhs 0 s).getD 0) (transPosts loopRow llhs) (0 : Fin 2) * 2
    + phoneCounts ![0, 2] [1, 2] (fun s => (statePosts loopRow llhs 0 s).getD 0) (transPosts loopRow llhs) (1 : Fin 2) ≤ m + 1 := by
  have h := (C180_counts loopRow ![0, 2] [1, 2] (by decide) ![2, 1, 1] loopRow_needs llhs hev).1
  rw [Fin.sum_univ_two] at h
  simpa using h

-- the non-speech unit may last four frames but not two
example : (∃ v, Accepts (unitHmm (nonSpeech (F := ℚ)) 7 10) v ∧ v.length = 4)
    ∧ ¬ ∃ v, Accepts (unitHmm (nonSpeech (F := ℚ)) 7 10) v ∧ v.length = 2 :=
  ⟨(C180_nonspeech 10 4).2 (by decide), fun h => absurd ((C180_nonspeech 10 2).1 h) (by decide)⟩

-- five frames in the three states
example : lasting (rowRecipe 1) 4 = 6 * (3/4) ^ 2 * (1/4) ^ 2 := by
  rw [C180_law (k := 2) (rowRecipe 1) _ _ _ (rowRecipe_row 1 (by norm_num))]
  norm_num [Nat.choose]

end Verif.Props
