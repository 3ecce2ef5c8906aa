import Verif.Lemmas.GraphLang
import Verif.Lemmas.Pipeline

/-!
# Helper lemmas: the phone-loop graph and the decoding graph
-/

namespace Verif.Pipeline

open Verif Verif.Spec Verif.Graph Verif.Props

variable {F : Type}

section dict
variable {α β : Type} [DecidableEq α]

theorem foldl_dictSet_new {γ : Type} (f : γ → α) (v : γ → β) (l : List γ) (d : List (α × β))
    (hn : (l.map f).Nodup) (hd : ∀ x ∈ l, f x ∉ d.map Prod.fst) :
    l.foldl (fun d x => dictSet d (f x) (v x)) d = d ++ l.map (fun x => (f x, v x)) := by
  induction l generalizing d with
  | nil => simp
  | cons x l ih =>
    rw [List.map_cons, List.nodup_cons] at hn
    rw [List.foldl_cons, dictSet_new _ _ _ (hd x List.mem_cons_self), ih _ hn.2]
    · simp
    · intro y hy
      rw [List.map_append, List.mem_append, not_or]
      refine ⟨hd y (List.mem_cons_of_mem _ hy), ?_⟩
      simp only [List.map_cons, List.map_nil, List.mem_singleton]
      intro he
      exact hn.1 (he ▸ List.mem_map.2 ⟨y, hy, rfl⟩)

end dict

/-- The states added for the units. -/
theorem addUnits_eq (us : List (String × String)) (c : ℕ) (g : Graph F) (d : List (String × ℕ))
    (hc : g.count = c) (hn : (us.map Prod.fst).Nodup) (hd : ∀ u ∈ us, u.1 ∉ d.map Prod.fst) :
    (addUnits us (g, d)).1 = ⟨c + us.length, g.states ++ (List.range' c us.length).map (fun i => (i, none)),
        g.arcs, g.startState, g.endState⟩
    ∧ (addUnits us (g, d)).2 = d ++ (us.map Prod.fst).zip (List.range' c us.length) := by
  induction us generalizing c g d with
  | nil =>
    refine ⟨?_, by simp [addUnits]⟩
    simp only [addUnits, List.length_nil, List.range'_zero, List.map_nil, List.append_nil, Nat.add_zero]
    subst hc
    rfl
  | cons u us ih =>
    obtain ⟨name, grp⟩ := u
    rw [List.map_cons, List.nodup_cons] at hn
    simp only [addUnits]
    have h2 : (g.addState none).2 = c := hc
    rw [h2, dictSet_new _ _ _ (hd _ List.mem_cons_self)]
    obtain ⟨i1, i2⟩ := ih (c + 1) (g.addState none).1 (d ++ [(name, c)])
      (by change g.count + 1 = _; omega) hn.2 (by
        intro u hu
        rw [List.map_append, List.mem_append, not_or]
        refine ⟨hd u (List.mem_cons_of_mem _ hu), ?_⟩
        simp only [List.map_cons, List.map_nil, List.mem_singleton]
        intro he
        exact hn.1 (he ▸ List.mem_map.2 ⟨u, hu, rfl⟩))
    rw [i1, i2]
    constructor
    · simp only [List.length_cons, List.range'_succ, List.map_cons, addState, hc]
      congr 1
      · omega
      · simp
    · simp [List.range'_succ]

theorem addUnitArcs_eq (u2s : List (String × ℕ)) (f : Graph F → ℕ → Graph F) (st : String → ℕ)
    (us : List String) (h : ∀ u ∈ us, dictGet u2s u = .ok (st u)) (g : Graph F) :
    addUnitArcs u2s f us g = .ok (us.foldl (fun g u => f g (st u)) g) := by
  induction us generalizing g with
  | nil => rfl
  | cons u us ih =>
    simp only [addUnitArcs, h u List.mem_cons_self]
    exact ih (fun v hv => h v (List.mem_cons_of_mem _ hv)) _

/-- What the loops adding arcs preserve. -/
structure Same [One F] (g g' : Graph F) : Prop where
  states : g'.states = g.states
  count : g'.count = g.count
  start : g'.startState = g.startState
  stop : g'.endState = g.endState
  inv : g.Inv → g'.Inv
  ones : (∀ a ∈ g.arcs, a.weight = 1) → ∀ a ∈ g'.arcs, a.weight = 1

theorem Same.trans [One F] {g g' g'' : Graph F} (h : Same g g') (h' : Same g' g'') : Same g g'' :=
  ⟨h'.states.trans h.states, h'.count.trans h.count, h'.start.trans h.start, h'.stop.trans h.stop,
   fun i => h'.inv (h.inv i), fun i => h'.ones (h.ones i)⟩

theorem Same.refl [One F] (g : Graph F) : Same g g := ⟨rfl, rfl, rfl, rfl, id, id⟩

theorem addArc_same [One F] (g : Graph F) (s e : ℕ) : Same g (g.addArc s e 1) := by
  refine ⟨(addArc_count _ _ _ _).2, (addArc_count _ _ _ _).1, ?_, ?_, addArc_inv g s e 1, ?_⟩
  · rw [addArc_eq]; split <;> rfl
  · rw [addArc_eq]; split <;> rfl
  · intro h a ha
    rw [addArc_eq] at ha
    split at ha
    · exact h a ha
    · rcases List.mem_append.1 ha with ha | ha
      · exact h a ha
      · rw [List.mem_singleton.1 ha]

theorem addArc_key (g : Graph F) (s e : ℕ) (w : F) (x : ℕ × ℕ) :
    x ∈ (g.addArc s e w).keys ↔ x ∈ g.keys ∨ x = (s, e) := by
  rw [addArc_eq]
  split
  · rename_i h
    constructor
    · exact Or.inl
    · rintro (hx | rfl)
      · exact hx
      · exact h
  · change x ∈ (g.arcs ++ [(⟨s, e, w⟩ : Arc F)]).map Arc.key ↔ _
    rw [List.map_append, List.mem_append]
    simp [Arc.key, keys]

theorem foldl_addArc [One F] (f : Graph F → String → Graph F) (K : String → ℕ × ℕ → Prop)
    (hs : ∀ g u, Same g (f g u)) (hk : ∀ g u x, x ∈ (f g u).keys ↔ x ∈ g.keys ∨ K u x)
    (us : List String) (g : Graph F) :
    Same g (us.foldl f g) ∧ ∀ x, x ∈ (us.foldl f g).keys ↔ x ∈ g.keys ∨ ∃ u ∈ us, K u x := by
  induction us generalizing g with
  | nil => exact ⟨.refl g, fun x => by simp⟩
  | cons u us ih =>
    obtain ⟨i1, i2⟩ := ih (f g u)
    refine ⟨(hs g u).trans i1, fun x => ?_⟩
    rw [List.foldl_cons, i2, hk]
    simp only [List.mem_cons, exists_eq_or_imp, or_assoc]

/-- Weights stay positive. -/
theorem normalize_weights [Field F] [LinearOrder F] [IsStrictOrderedRing F] (g : Graph F) (hg : g.Inv)
    (hpos : ∀ a ∈ g.arcs, 0 < a.weight) : ∀ a ∈ g.normalize.1.arcs, 0 < a.weight := by
  have hsum : ∀ a ∈ g.arcs, 0 < outSum g a.start := by
    intro a ha
    unfold outSum
    apply List.sum_pos
    · intro x hx
      obtain ⟨y, hy, rfl⟩ := List.mem_map.1 hx
      exact hpos y (List.mem_filter.1 hy).1
    · intro h
      have : a ∈ g.arcs.filter (fun b => b.start = a.start) := List.mem_filter.2 ⟨ha, by simp⟩
      rw [List.map_eq_nil_iff.1 h] at this
      cases this
  have := (C02_normalize_divides g hg.ids_nodup (by
    rintro s - ⟨a, ha, rfl⟩
    exact (hsum a ha).ne')).2.1
  rw [this]
  intro a ha
  obtain ⟨b, hb, rfl⟩ := List.mem_map.1 ha
  split
  · exact div_pos (hpos b hb) (hsum b hb)
  · exact hpos b hb

/-- The state of a unit in the phone loop. -/
def unitState (names : List String) (u : String) : ℕ := 3 + names.idxOf u

/-- The graph made by `mkphoneloopgraph` for distinct names. -/
theorem mkphoneloopgraph_eq [Field F] [LinearOrder F] [IsStrictOrderedRing F]
    (us : List (String × String)) (grp : Option String) (hn : (us.map Prod.fst).Nodup)
    (hsp : ∀ u ∈ us, u.1 ∉ ["\\<s\\>", "\\</s\\>", "#1"]) :
    ∃ g : Graph F, mkphoneloopgraph us grp = .ok (g, [(0, "\\<s\\>"), (1, "\\</s\\>"), (2, "#1")] ++
        (List.range' 3 us.length).zip (us.map Prod.fst))
    ∧ g.Inv ∧ ArcsBelow g ∧ (∀ a ∈ g.arcs, a.start ∈ g.ids ∧ a.stop ∈ g.ids)
    ∧ (∀ a ∈ g.arcs, 0 < a.weight)
    ∧ g.count = us.length + 3 ∧ g.states = (List.range (us.length + 3)).map (fun i => (i, none))
    ∧ g.startState = some 0 ∧ g.endState = some 1
    ∧ (∀ x, x ∈ g.keys ↔ (match grp with
        | none => x = (0, 2) ∨ x = (2, 1)
        | some G => (∃ u, (u, G) ∈ us ∧ x = (0, unitState (us.map Prod.fst) u)) ∨
          ∃ u, (u, G) ∈ us ∧ x = (unitState (us.map Prod.fst) u, 1)) ∨
        ∃ u ∈ us.map Prod.fst, x = (2, unitState (us.map Prod.fst) u) ∨
          x = (unitState (us.map Prod.fst) u, 2)) := by
  set names := us.map Prod.fst with hnames
  have hlen : names.length = us.length := by simp [hnames]
  obtain ⟨a1, a2⟩ := addUnits_eq us 3 (loopBase : Graph F) [] rfl hn (by simp)
  rw [List.nil_append] at a2
  set r := addUnits us ((loopBase : Graph F), []) with hr
  -- the dictionaries
  have hu2s : r.2.foldl (fun d p => dictSet d p.1 p.2) [("\\<s\\>", 0), ("\\</s\\>", 1), ("#1", 2)]
      = [("\\<s\\>", 0), ("\\</s\\>", 1), ("#1", 2)] ++ names.zip (List.range' 3 us.length) := by
    rw [a2, foldl_dictSet_new Prod.fst Prod.snd]
    · congr 1
      exact List.map_id _
    · rw [List.map_fst_zip (by simp [hlen])]
      exact hn
    · intro x hx
      obtain ⟨u, hu, he⟩ := List.mem_map.1 (List.of_mem_zip hx).1
      rw [← he]
      exact hsp u hu
  set u2s := [("\\<s\\>", 0), ("\\</s\\>", 1), ("#1", 2)] ++ names.zip (List.range' 3 us.length) with hU
  have hs2u : u2s.foldl (fun d p => dictSet d p.2 p.1) [] =
      [(0, "\\<s\\>"), (1, "\\</s\\>"), (2, "#1")] ++ (List.range' 3 us.length).zip names := by
    rw [foldl_dictSet_new Prod.snd Prod.fst]
    · rw [hU, List.nil_append, List.map_append]
      congr 1
      rw [← List.zip_swap, List.map_map]
      exact List.map_id _
    · rw [hU, List.map_append, List.map_snd_zip (by simp [hlen])]
      change (0 :: 1 :: 2 :: List.range' 3 us.length).Nodup
      simp [List.nodup_range', List.mem_range'_1]
    · simp
  have hkeys : (u2s.map Prod.fst).Nodup := by
    rw [hU, List.map_append, List.map_fst_zip (by simp [hlen])]
    rw [List.nodup_append]
    refine ⟨by decide, hn, ?_⟩
    rintro a ha b hb rfl
    obtain ⟨u, hu, rfl⟩ := List.mem_map.1 hb
    exact hsp u hu ha
  have hst : ∀ u ∈ names, dictGet u2s u = .ok (unitState names u) := by
    intro u hu
    apply dictGet_of_mem _ _ _ hkeys
    rw [hU, List.mem_append]
    right
    have hi := List.idxOf_lt_length_of_mem hu
    have : (names.zip (List.range' 3 us.length))[names.idxOf u]'(by
        rw [List.length_zip, List.length_range']; omega) = (u, unitState names u) := by
      rw [List.getElem_zip]
      refine Prod.ext (List.getElem_idxOf _) ?_
      simp [unitState]
    rw [← this]
    exact List.getElem_mem _
  have hpivot : dictGet u2s "#1" = .ok 2 := dictGet_of_mem _ _ _ hkeys (by rw [hU]; simp)
  have hpivot' : dictGet ([(0, "\\<s\\>"), (1, "\\</s\\>"), (2, "#1")] ++
      (List.range' 3 us.length).zip names) 2 = .ok "#1" := by
    simp [dictGet]
  -- the base graph
  have hr1s : r.1.states = (List.range (us.length + 3)).map (fun i => (i, none)) := by
    rw [a1]
    change (loopBase : Graph F).states ++ _ = _
    have : (loopBase : Graph F).states = (List.range 3).map (fun i => (i, none)) := rfl
    rw [this, ← List.map_append, List.range_eq_range', List.range_eq_range', Nat.add_comm us.length 3,
      ← List.range'_append (s := 0) (m := 3)]
  have hr1c : r.1.count = us.length + 3 := by rw [a1]; change 3 + us.length = _; omega
  have hr1a : r.1.arcs = [] := by rw [a1]; rfl
  have hr1k : r.1.keys = [] := by unfold keys; rw [hr1a]; rfl
  have hr1i : r.1.Inv := by
    have hid : r.1.ids = List.range (us.length + 3) := by
      unfold ids; rw [hr1s, List.map_map]; exact List.map_id _
    refine ⟨hid ▸ List.nodup_range, ?_, by rw [hr1k]; exact List.nodup_nil⟩
    intro i hi
    rw [hid] at hi
    rw [hr1c]; exact List.mem_range.1 hi
  -- the entry and exit units with the function giving their state
  have main : ∀ (ses : List String) (st : String → ℕ), (∀ u ∈ ses, dictGet u2s u = .ok (st u)) →
      (∀ u ∈ ses, st u < us.length + 3) →
      startEndUnits us ([(0, "\\<s\\>"), (1, "\\</s\\>"), (2, "#1")] ++
        (List.range' 3 us.length).zip names) grp = .ok ses →
      ∃ g : Graph F, mkphoneloopgraph us grp = .ok (g, [(0, "\\<s\\>"), (1, "\\</s\\>"), (2, "#1")] ++
          (List.range' 3 us.length).zip names)
      ∧ g.Inv ∧ ArcsBelow g ∧ (∀ a ∈ g.arcs, a.start ∈ g.ids ∧ a.stop ∈ g.ids)
      ∧ (∀ a ∈ g.arcs, 0 < a.weight)
      ∧ g.count = us.length + 3 ∧ g.states = (List.range (us.length + 3)).map (fun i => (i, none))
      ∧ g.startState = some 0 ∧ g.endState = some 1
      ∧ (∀ x, x ∈ g.keys ↔ ((∃ u ∈ ses, x = (0, st u)) ∨ ∃ u ∈ ses, x = (st u, 1)) ∨
          ∃ u ∈ names, x = (2, unitState names u) ∨ x = (unitState names u, 2)) := by
    intro ses st hses hlt hse
    obtain ⟨s1, k1⟩ := foldl_addArc (fun (g : Graph F) u => g.addArc 0 (st u) 1) (fun u x => x = (0, st u))
      (fun g u => addArc_same g _ _) (fun g u x => addArc_key g _ _ _ x) ses r.1
    obtain ⟨s2, k2⟩ := foldl_addArc (fun (g : Graph F) u => g.addArc (st u) 1 1) (fun u x => x = (st u, 1))
      (fun g u => addArc_same g _ _) (fun g u x => addArc_key g _ _ _ x) ses
      (ses.foldl (fun (g : Graph F) u => g.addArc 0 (st u) 1) r.1)
    obtain ⟨s3, k3⟩ := foldl_addArc
      (fun (g : Graph F) u => (g.addArc 2 (unitState names u) 1).addArc (unitState names u) 2 1)
      (fun u x => x = (2, unitState names u) ∨ x = (unitState names u, 2))
      (fun g u => (addArc_same g _ _).trans (addArc_same _ _ _))
      (fun g u x => by rw [addArc_key, addArc_key, or_assoc]) names
      (ses.foldl (fun (g : Graph F) u => g.addArc (st u) 1 1)
        (ses.foldl (fun (g : Graph F) u => g.addArc 0 (st u) 1) r.1))
    have e1 := addUnitArcs_eq u2s (fun g s => g.addArc 0 s 1) st ses hses r.1
    have e2 := addUnitArcs_eq u2s (fun g s => g.addArc s 1 1) st ses hses
      (ses.foldl (fun (g : Graph F) u => g.addArc 0 (st u) 1) r.1)
    have e3 := addUnitArcs_eq u2s (fun g s => (g.addArc 2 s 1).addArc s 2 1) (unitState names) names hst
      (ses.foldl (fun (g : Graph F) u => g.addArc (st u) 1 1)
        (ses.foldl (fun (g : Graph F) u => g.addArc 0 (st u) 1) r.1))
    set g3 := names.foldl
      (fun (g : Graph F) u => (g.addArc 2 (unitState names u) 1).addArc (unitState names u) 2 1)
      (ses.foldl (fun (g : Graph F) u => g.addArc (st u) 1 1)
        (ses.foldl (fun (g : Graph F) u => g.addArc 0 (st u) 1) r.1)) with hg3
    have s := s1.trans (s2.trans s3)
    have hk : ∀ x, x ∈ g3.keys ↔ ((∃ u ∈ ses, x = (0, st u)) ∨ ∃ u ∈ ses, x = (st u, 1)) ∨
          ∃ u ∈ names, x = (2, unitState names u) ∨ x = (unitState names u, 2) := by
      intro x
      rw [k3, k2, k1, hr1k]
      simp
    have hinv := s.inv hr1i
    have hones : ∀ a ∈ g3.arcs, 0 < a.weight := fun a ha => by
      rw [s.ones (by rw [hr1a]; simp) a ha]; exact one_pos
    have hnorm := normalize_pos g3 hinv hones
    obtain ⟨n1, n2, n3, n4⟩ := normalize_lang g3
    have nc : g3.normalize.1.count = g3.count := (normalizeLoop_frame g3.ids g3).1
    have hule : ∀ u ∈ names, unitState names u < us.length + 3 := by
      intro u hu
      have := List.idxOf_lt_length_of_mem hu
      unfold unitState; omega
    have hbelow : ∀ a ∈ g3.normalize.1.arcs, a.start < us.length + 3 ∧ a.stop < us.length + 3 := by
      intro a ha
      have hak : a.key ∈ g3.keys := n1 ▸ List.mem_map.2 ⟨a, ha, rfl⟩
      rw [hk] at hak
      have hsv : a.start = a.key.1 ∧ a.stop = a.key.2 := ⟨rfl, rfl⟩
      rw [hsv.1, hsv.2]
      rcases hak with (⟨u, hu, h⟩ | ⟨u, hu, h⟩) | ⟨u, hu, h | h⟩
      · have := hlt u hu; rw [h]; exact ⟨by dsimp only; omega, this⟩
      · have := hlt u hu; rw [h]; exact ⟨this, by dsimp only; omega⟩
      · have := hule u hu; rw [h]; exact ⟨by dsimp only; omega, this⟩
      · have := hule u hu; rw [h]; exact ⟨this, by dsimp only; omega⟩
    have hcount : g3.normalize.1.count = us.length + 3 := nc.trans (s.count.trans hr1c)
    have hstates := n2.trans (s.states.trans hr1s)
    have hids : g3.normalize.1.ids = List.range (us.length + 3) := by
      unfold ids; rw [hstates, List.map_map]; exact List.map_id _
    refine ⟨g3.normalize.1, ?_, normalize_inv g3 hinv, ?_, ?_, normalize_weights g3 hinv hones, hcount,
      hstates, ?_, ?_, ?_⟩
    · unfold mkphoneloopgraph
      dsimp only
      rw [← hr, hu2s, hs2u, hse]
      dsimp only
      rw [e1]
      dsimp only
      rw [e2]
      dsimp only
      rw [e3]
      dsimp only
      generalize g3.normalize = q at *
      obtain ⟨g', e⟩ := q
      dsimp only at hnorm
      subst hnorm
      rfl
    · intro a ha
      rw [hcount]; exact hbelow a ha
    · intro a ha
      rw [hids]
      exact ⟨List.mem_range.2 (hbelow a ha).1, List.mem_range.2 (hbelow a ha).2⟩
    · rw [n3, s.start, a1]; rfl
    · rw [n4, s.stop, a1]; rfl
    · intro x; rw [n1]; exact hk x
  cases grp with
  | none =>
    obtain ⟨g, h⟩ := main ["#1"] (fun _ => 2) (by
        intro u hu
        rw [List.mem_singleton.1 hu]; exact hpivot) (by intro u _; omega) (by
        simp only [startEndUnits]
        rw [hpivot'])
    refine ⟨g, ?_⟩
    obtain ⟨h1, h2, h3, h4, h5, h6, h7, h8, h9, h10⟩ := h
    refine ⟨h1, h2, h3, h4, h5, h6, h7, h8, h9, fun x => ?_⟩
    rw [h10]
    simp
  | some G =>
    have hmem : ∀ u, u ∈ (us.filter (fun u => u.2 = G)).map Prod.fst ↔ (u, G) ∈ us := by
      intro u
      rw [List.mem_map]
      constructor
      · rintro ⟨x, hx, rfl⟩
        obtain ⟨h1, h2⟩ := List.mem_filter.1 hx
        simp only [decide_eq_true_eq] at h2
        rw [← h2]; exact h1
      · intro h
        exact ⟨(u, G), List.mem_filter.2 ⟨h, by simp⟩, rfl⟩
    have hmem' : ∀ u, (u, G) ∈ us → u ∈ names := fun u h => List.mem_map.2 ⟨_, h, rfl⟩
    obtain ⟨g, h⟩ := main ((us.filter (fun u => u.2 = G)).map Prod.fst) (unitState names) (by
        intro u hu
        exact hst u (hmem' u ((hmem u).1 hu))) (by
        intro u hu
        have := List.idxOf_lt_length_of_mem (hmem' u ((hmem u).1 hu))
        unfold unitState; omega) rfl
    refine ⟨g, ?_⟩
    obtain ⟨h1, h2, h3, h4, h5, h6, h7, h8, h9, h10⟩ := h
    refine ⟨h1, h2, h3, h4, h5, h6, h7, h8, h9, fun x => ?_⟩
    rw [h10]
    simp only [hmem]

theorem unitState_inj (names : List String) (u v : String) (hu : u ∈ names)
    (h : unitState names u = unitState names v) : u = v := by
  unfold unitState at h
  exact (List.idxOf_inj hu).1 (Nat.add_left_cancel h)

/-! ### The language of a loop -/

/-- The loop through the pivot, entered and left at any moment. -/
theorem loop_reads_any {α : Type} (g : Graph F) (names : List String) (st : String → ℕ)
    (lab : ℕ → List α → Prop) (L : String → List α → Prop) (hst : ∀ u, 3 ≤ st u)
    (hinj : ∀ u ∈ names, ∀ v, st u = st v → u = v)
    (hk : ∀ x, x ∈ g.keys ↔ (x = (0, 2) ∨ x = (2, 1)) ∨ ∃ u ∈ names, x = (2, st u) ∨ x = (st u, 2))
    (h0 : ∀ i < 3, ∀ w, lab i w ↔ w = []) (hL : ∀ u ∈ names, ∀ w, lab (st u) w ↔ L u w) (w : List α) :
    Reads g lab 1 0 w ↔ ∃ us ws, (∀ u ∈ us, u ∈ names) ∧ List.Forall₂ L us ws ∧ w = ws.flatten := by
  constructor
  · have key : ∀ x w, Reads g lab 1 x w →
        (x = 1 → w = []) ∧ ((x = 0 ∨ x = 2) → ∃ us ws, (∀ u ∈ us, u ∈ names) ∧ List.Forall₂ L us ws
          ∧ w = ws.flatten)
        ∧ ∀ u ∈ names, x = st u → ∃ us ws, (∀ u ∈ us, u ∈ names) ∧ List.Forall₂ L (u :: us) ws
          ∧ w = ws.flatten := by
      intro x w h
      induction h with
      | stop w hw =>
        refine ⟨fun _ => (h0 1 (by omega) w).1 hw, fun h => by omega, fun u _ h => ?_⟩
        have := hst u; omega
      | step a w w' ha hw _ ih =>
        obtain ⟨ih1, ih2, ih3⟩ := ih
        have hkey : a.key ∈ g.keys := List.mem_map.2 ⟨a, ha, rfl⟩
        rw [hk] at hkey
        have hs : a.start = a.key.1 := rfl
        have he : a.stop = a.key.2 := rfl
        rcases hkey with (h | h) | ⟨u, hu, h | h⟩ <;> rw [h] at hs he <;> dsimp only at hs he
        · rw [hs] at hw
          rw [(h0 0 (by omega) w).1 hw, List.nil_append]
          exact ⟨fun h => by omega, fun _ => ih2 (Or.inr he), fun u _ h => by have := hst u; omega⟩
        · rw [hs] at hw
          rw [(h0 2 (by omega) w).1 hw, List.nil_append, ih1 he]
          exact ⟨fun h => by omega, fun _ => ⟨[], [], by simp, .nil, rfl⟩, fun u _ h => by
            have := hst u; omega⟩
        · rw [hs] at hw
          rw [(h0 2 (by omega) w).1 hw, List.nil_append]
          refine ⟨fun h => by omega, fun _ => ?_, fun u _ h => by have := hst u; omega⟩
          obtain ⟨us, ws, h1, h2, h3⟩ := ih3 u hu he
          refine ⟨u :: us, ws, ?_, h2, h3⟩
          intro v hv
          rcases List.mem_cons.1 hv with rfl | hv
          · exact hu
          · exact h1 v hv
        · have h3 := hst u
          refine ⟨fun h => by omega, fun h => by omega, fun v hv hx => ?_⟩
          have huv := hinj u hu v (by omega)
          subst huv
          obtain ⟨us, ws, h1, h2, rfl⟩ := ih2 (Or.inr he)
          rw [hs, hL u hu] at hw
          exact ⟨us, w :: ws, h1, .cons hw h2, by simp⟩
    intro h
    exact (key 0 w h).2.1 (Or.inl rfl)
  · rintro ⟨us, ws, h1, h2, rfl⟩
    have harc : ∀ x, x ∈ g.keys → ∃ a ∈ g.arcs, a.start = x.1 ∧ a.stop = x.2 := by
      intro x hx
      obtain ⟨a, ha, rfl⟩ := List.mem_map.1 hx
      exact ⟨a, ha, rfl, rfl⟩
    have h2' : Reads g lab 1 2 ws.flatten := by
      induction h2 with
      | nil =>
        obtain ⟨a, ha, hs, he⟩ := harc (2, 1) ((hk _).2 (Or.inl (Or.inr rfl)))
        dsimp only at hs he
        rw [← hs]
        refine .step a [] [] ha ?_ ?_
        · rw [hs]; exact (h0 2 (by omega) _).2 rfl
        · rw [he]; exact .stop [] ((h0 1 (by omega) _).2 rfl)
      | @cons u v us ws hu _ ih =>
        have hun := h1 u List.mem_cons_self
        obtain ⟨a, ha, hs, he⟩ := harc (2, st u) ((hk _).2 (Or.inr ⟨u, hun, Or.inl rfl⟩))
        obtain ⟨b, hb, hbs, hbe⟩ := harc (st u, 2) ((hk _).2 (Or.inr ⟨u, hun, Or.inr rfl⟩))
        dsimp only at hs he hbs hbe
        rw [← hs]
        refine .step a [] _ ha ?_ ?_
        · rw [hs]; exact (h0 2 (by omega) _).2 rfl
        · rw [he, ← hbs]
          refine .step b v ws.flatten hb ?_ ?_
          · rw [hbs]; exact (hL u hun v).2 hu
          · rw [hbe]
            exact ih fun u hu => h1 u (List.mem_cons_of_mem _ hu)
    obtain ⟨a, ha, hs, he⟩ := harc (0, 2) ((hk _).2 (Or.inl (Or.inl rfl)))
    dsimp only at hs he
    rw [← hs]
    refine .step a [] _ ha ?_ ?_
    · rw [hs]; exact (h0 0 (by omega) _).2 rfl
    · rw [he]; exact h2'

/-- The loop entered and left through the units of `E`. -/
theorem loop_reads_group {α : Type} (g : Graph F) (names : List String) (E : String → Prop)
    (st : String → ℕ) (lab : ℕ → List α → Prop) (L : String → List α → Prop) (hst : ∀ u, 3 ≤ st u)
    (hE : ∀ u, E u → u ∈ names)
    (hinj : ∀ u ∈ names, ∀ v, st u = st v → u = v)
    (hk : ∀ x, x ∈ g.keys ↔ ((∃ u, E u ∧ x = (0, st u)) ∨ ∃ u, E u ∧ x = (st u, 1)) ∨
      ∃ u ∈ names, x = (2, st u) ∨ x = (st u, 2))
    (h0 : ∀ i < 3, ∀ w, lab i w ↔ w = []) (hL : ∀ u ∈ names, ∀ w, lab (st u) w ↔ L u w) (w : List α) :
    Reads g lab 1 0 w ↔ ∃ us ws, (∀ u ∈ us, u ∈ names) ∧ (∃ a, us.head? = some a ∧ E a)
      ∧ (∃ b, us.getLast? = some b ∧ E b) ∧ List.Forall₂ L us ws ∧ w = ws.flatten := by
  constructor
  · have key : ∀ x w, Reads g lab 1 x w →
        (x = 1 → w = [])
        ∧ (x = 0 → ∃ us ws, (∀ u ∈ us, u ∈ names) ∧ (∃ a, us.head? = some a ∧ E a)
          ∧ (∃ b, us.getLast? = some b ∧ E b) ∧ List.Forall₂ L us ws ∧ w = ws.flatten)
        ∧ (x = 2 → ∃ u us ws, (∀ v ∈ u :: us, v ∈ names)
          ∧ (∃ b, (u :: us).getLast? = some b ∧ E b) ∧ List.Forall₂ L (u :: us) ws ∧ w = ws.flatten)
        ∧ ∀ u ∈ names, x = st u → ∃ us ws, (∀ v ∈ us, v ∈ names)
          ∧ (∃ b, (u :: us).getLast? = some b ∧ E b) ∧ List.Forall₂ L (u :: us) ws
          ∧ w = ws.flatten := by
      intro x w h
      induction h with
      | stop w hw =>
        refine ⟨fun _ => (h0 1 (by omega) w).1 hw, fun h => by omega, fun h => by omega, fun u _ h => ?_⟩
        have := hst u; omega
      | step a w w' ha hw _ ih =>
        obtain ⟨ih1, ih0, ih2, ih3⟩ := ih
        have hkey : a.key ∈ g.keys := List.mem_map.2 ⟨a, ha, rfl⟩
        rw [hk] at hkey
        have hs : a.start = a.key.1 := rfl
        have he : a.stop = a.key.2 := rfl
        rcases hkey with (⟨u, hu, h⟩ | ⟨u, hu, h⟩) | ⟨u, hu, h | h⟩ <;> rw [h] at hs he <;>
          dsimp only at hs he
        · rw [hs] at hw
          rw [(h0 0 (by omega) w).1 hw, List.nil_append]
          refine ⟨fun h => by omega, fun _ => ?_, fun h => by omega, fun v _ h => by
            have := hst v; omega⟩
          obtain ⟨us, ws, h1, h2, h3, h4⟩ := ih3 u (hE u hu) he
          refine ⟨u :: us, ws, ?_, ⟨u, rfl, hu⟩, h2, h3, h4⟩
          intro v hv
          rcases List.mem_cons.1 hv with rfl | hv
          · exact hE _ hu
          · exact h1 v hv
        · have h3 := hst u
          refine ⟨fun h => by omega, fun h => by omega, fun h => by omega, fun v hv hx => ?_⟩
          have huv := hinj u (hE u hu) v (by omega)
          subst huv
          rw [hs, hL u hv] at hw
          rw [ih1 he, List.append_nil]
          exact ⟨[], [w], by simp, ⟨u, rfl, hu⟩, .cons hw .nil, by simp⟩
        · rw [hs] at hw
          rw [(h0 2 (by omega) w).1 hw, List.nil_append]
          refine ⟨fun h => by omega, fun h => by omega, fun _ => ?_, fun v _ h => by
            have := hst v; omega⟩
          obtain ⟨us, ws, h1, h2, h3, h4⟩ := ih3 u hu he
          refine ⟨u, us, ws, ?_, h2, h3, h4⟩
          intro v hv
          rcases List.mem_cons.1 hv with rfl | hv
          · exact hu
          · exact h1 v hv
        · have h3 := hst u
          refine ⟨fun h => by omega, fun h => by omega, fun h => by omega, fun v hv hx => ?_⟩
          have huv := hinj u hu v (by omega)
          subst huv
          obtain ⟨u', us, ws, h1, ⟨b, hb, hb'⟩, h2, rfl⟩ := ih2 he
          rw [hs, hL u hu] at hw
          refine ⟨u' :: us, w :: ws, h1, ⟨b, ?_, hb'⟩, .cons hw h2, by simp⟩
          rw [List.getLast?_cons_cons]; exact hb
    intro h
    exact (key 0 w h).2.1 rfl
  · rintro ⟨us, ws, h1, ⟨a, ha, haE⟩, ⟨b, hb, hbE⟩, h2, rfl⟩
    have harc : ∀ x, x ∈ g.keys → ∃ a ∈ g.arcs, a.start = x.1 ∧ a.stop = x.2 := by
      intro x hx
      obtain ⟨a, ha, rfl⟩ := List.mem_map.1 hx
      exact ⟨a, ha, rfl, rfl⟩
    have key : ∀ us ws, (∀ u ∈ us, u ∈ names) → us.getLast? = some b → List.Forall₂ L us ws →
        ∀ u, us.head? = some u → Reads g lab 1 (st u) ws.flatten := by
      intro us ws h1 hb h2
      induction h2 with
      | nil => intro u hu; cases hu
      | @cons u v us ws hu hrest ih =>
        intro u' hu'
        have : u = u' := by simpa using hu'
        subst this
        have hun := h1 u List.mem_cons_self
        cases us with
        | nil =>
          cases hrest
          have : u = b := by simpa using hb
          subst this
          obtain ⟨x, hx, hs, he⟩ := harc (st u, 1) ((hk _).2 (Or.inl (Or.inr ⟨u, hbE, rfl⟩)))
          dsimp only at hs he
          rw [← hs, List.flatten_cons]
          refine .step x v _ hx ?_ ?_
          · rw [hs]; exact (hL u hun v).2 hu
          · rw [he]; exact .stop [] ((h0 1 (by omega) _).2 rfl)
        | cons u2 us =>
          rw [List.getLast?_cons_cons] at hb
          have h1' : ∀ x ∈ u2 :: us, x ∈ names := fun x hx => h1 x (List.mem_cons_of_mem _ hx)
          have hr := ih h1' hb u2 rfl
          obtain ⟨x, hx, hs, he⟩ := harc (st u, 2) ((hk _).2 (Or.inr ⟨u, hun, Or.inr rfl⟩))
          obtain ⟨y, hy, hys, hye⟩ := harc (2, st u2)
            ((hk _).2 (Or.inr ⟨u2, h1' u2 List.mem_cons_self, Or.inl rfl⟩))
          dsimp only at hs he hys hye
          rw [← hs, List.flatten_cons]
          refine .step x v _ hx ?_ ?_
          · rw [hs]; exact (hL u hun v).2 hu
          · rw [he, ← hys]
            refine .step y [] _ hy ?_ ?_
            · rw [hys]; exact (h0 2 (by omega) _).2 rfl
            · rw [hye]; exact hr
    obtain ⟨x, hx, hs, he⟩ := harc (0, st a) ((hk _).2 (Or.inl (Or.inl ⟨a, haE, rfl⟩)))
    dsimp only at hs he
    rw [← hs]
    refine .step x [] _ hx ?_ ?_
    · rw [hs]; exact (h0 0 (by omega) _).2 rfl
    · rw [he]; exact key us ws h1 hb h2 a ha

/-- `replaceAll` looks the states up and replaces. -/
theorem replaceAll_eq (p2s : List (String × ℕ)) (st : String → ℕ) (hmms : List (String × Graph F))
    (h : ∀ p ∈ hmms, dictGet p2s p.1 = .ok (st p.1)) (g : Graph F) :
    replaceAll p2s hmms g = match replaceList (hmms.map fun p => (st p.1, p.2)) g with
      | (_, some e) => .error e
      | (g', none) => .ok g' := by
  induction hmms generalizing g with
  | nil => rfl
  | cons p hmms ih =>
    obtain ⟨u, sub⟩ := p
    have hp := h (u, sub) List.mem_cons_self
    dsimp only at hp
    simp only [replaceAll, hp, List.map_cons, replaceList]
    generalize g.replaceState (st u) sub = r
    obtain ⟨g', e⟩ := r
    cases e with
    | some e => rfl
    | none => exact ih (fun p hp => h p (List.mem_cons_of_mem _ hp)) g'

theorem langLab_mem (l : List (ℕ × Graph F)) (hn : (l.map Prod.fst).Nodup) (lab : ℕ → List ℕ → Prop)
    (p : ℕ × Graph F) (hp : p ∈ l) (w : List ℕ) : langLab l lab p.1 w ↔ Accepts p.2 w := by
  induction l with
  | nil => cases hp
  | cons q l ih =>
    obtain ⟨old, sub⟩ := q
    rw [List.map_cons, List.nodup_cons] at hn
    simp only [langLab]
    rcases List.mem_cons.1 hp with rfl | hp
    · rw [if_pos rfl]
    · rw [if_neg, ih hn.2 hp]
      intro h
      exact hn.1 (h ▸ List.mem_map.2 ⟨p, hp, rfl⟩)

end Verif.Pipeline
