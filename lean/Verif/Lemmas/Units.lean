import Verif.Lemmas.Pipeline
import Verif.Lemmas.GraphLang
import Verif.Lemmas.LoopGraph

/-!
# Helper lemmas: success of `mkphones`
-/

namespace Verif.Pipeline

open Verif Verif.Spec Verif.Graph Verif.Props

variable {F : Type}

theorem validTopo_ids [LT F] [Zero F] (topo : List (Arc F)) (n : ℕ) (h : ValidTopo topo n) :
    topoIds topo = List.range n := by
  have hmem : ∀ i, i ∈ topoIds topo ↔ i ∈ List.range n := by
    intro i
    rw [topoIds_mem, List.mem_range]
    constructor
    · rintro ⟨a, ha, rfl | rfl⟩
      · exact (h.below a ha).1
      · exact (h.below a ha).2
    · exact h.covers i
  have hp : (topoIds topo).Perm (List.range n) :=
    (List.perm_ext_iff_of_nodup (topoIds_nodup topo) List.nodup_range).2 hmem
  have hlen : (topoIds topo).length = n := by rw [hp.length_eq, List.length_range]
  rw [topoIds_range topo (fun i hi => by rw [hlen]; exact List.mem_range.1 ((hmem i).1 hi)), hlen]

theorem unitStates_append (first last : ℕ) (is js : List ℕ) (pdf : ℤ) (g : Graph F) :
    unitStates first last (is ++ js) pdf g
      = unitStates first last js (pdf + (is.filter (fun i => ¬ (i = first ∨ i = last))).length)
          (unitStates first last is pdf g) := by
  induction is generalizing pdf g with
  | nil => simp [unitStates]
  | cons i is ih =>
    simp only [List.cons_append, unitStates]
    by_cases h : i = first ∨ i = last
    · rw [if_pos h, if_pos h, ih, List.filter_cons_of_neg (by simpa only [decide_eq_true_eq, not_not] using h)]
    · rw [if_neg h, if_neg h, ih, List.filter_cons_of_pos (by simpa using h)]
      congr 1
      rw [List.length_cons]; push_cast; ring

theorem unitStates_inner (first last : ℕ) (is : List ℕ) (h : ∀ i ∈ is, ¬ (i = first ∨ i = last))
    (pdf : ℕ) (g : Graph F) :
    (unitStates first last is pdf g).states
      = g.states ++ (List.range is.length).map (fun k => (g.count + k, some (pdf + k))) := by
  induction is generalizing pdf g with
  | nil => simp [unitStates]
  | cons i is ih =>
    simp only [unitStates]
    rw [if_neg (h i List.mem_cons_self)]
    have e : ((pdf : ℤ) + 1) = ((pdf + 1 : ℕ) : ℤ) := by push_cast; ring
    rw [e, ih (fun j hj => h j (List.mem_cons_of_mem _ hj))]
    rw [List.length_cons, List.range_succ_eq_map, List.map_cons, List.map_map]
    simp only [addState, Int.toNat_natCast, List.append_assoc, List.singleton_append, Nat.add_zero]
    congr 2
    apply List.map_congr_left
    intro k _
    simp only [Function.comp, Nat.succ_eq_add_one]
    rw [show g.count + 1 + k = g.count + (k + 1) by omega, show pdf + 1 + k = pdf + (k + 1) by omega]

theorem createUnitGraph_valid [LT F] [Zero F] (topo : List (Arc F)) (n first : ℕ)
    (h : ValidTopo topo n) :
    createUnitGraph topo first = .ok (unitHmm topo n first, ((first + (n - 2) : ℕ) : ℤ)) := by
  have hids := validTopo_ids topo n h
  have hn := h.size
  have hh : (topoIds topo).head? = some 0 := by
    rw [hids, List.head?_range, if_neg (by omega)]
  have hl : (topoIds topo).getLast? = some (n - 1) := by
    rw [hids, List.getLast?_range, if_neg (by omega)]
  unfold createUnitGraph
  dsimp only
  rw [hh, hl]
  dsimp only
  rw [hids, List.length_range]
  have hrange : List.range n = [0] ++ (List.range' 1 (n - 2) ++ [n - 1]) := by
    obtain ⟨m, rfl⟩ : ∃ m, n = m + 2 := ⟨n - 2, by omega⟩
    rw [List.range_eq_range', List.range'_succ, List.range'_concat]
    simp
    omega
  have hfil : ((List.range' 1 (n - 2)).filter (fun i => ¬ (i = 0 ∨ i = n - 1))).length = n - 2 := by
    rw [List.filter_eq_self.2]
    · simp
    · intro i hi
      have := List.mem_range'_1.1 hi
      simp; omega
  have hstates : (unitStates 0 (n - 1) (List.range n) first (Graph.empty : Graph F)).states
      = (unitHmm topo n first).states := by
    have h1 : unitStates 0 (n - 1) [0] first (Graph.empty : Graph F) = ((Graph.empty : Graph F).addState none).1 := by
      simp [unitStates]
    have e0 : ([0].filter (fun i => ¬ (i = 0 ∨ i = n - 1))).length = 0 := by simp
    have hlast : ∀ (p : ℤ) (g : Graph F), unitStates 0 (n - 1) [n - 1] p g = (g.addState none).1 := by
      intro p g; simp [unitStates]
    rw [hrange, unitStates_append, h1, e0, unitStates_append, hlast]
    have e1 : (first : ℤ) + ((0 : ℕ) : ℤ) = ((first : ℕ) : ℤ) := by simp
    rw [e1]
    have hin := unitStates_inner 0 (n - 1) (List.range' 1 (n - 2)) (by
      intro i hi
      have := List.mem_range'_1.1 hi
      omega) first ((Graph.empty : Graph F).addState none).1
    have hc := (unitStates_frame 0 (n - 1) (List.range' 1 (n - 2)) first ((Graph.empty : Graph F).addState none).1).2.1
    generalize unitStates 0 (n - 1) (List.range' 1 (n - 2)) first ((Graph.empty : Graph F).addState none).1 = g at *
    simp only [addState]
    rw [hin, hc]
    unfold unitHmm
    dsimp only
    rw [hrange]
    simp only [List.map_append, List.map_cons, List.map_nil, List.length_range', addState, Graph.empty]
    simp only [true_or, or_true, if_true, List.nil_append, List.append_assoc]
    congr 2
    · rw [List.range'_eq_map_range, List.map_map]
      apply List.map_congr_left
      intro k hk
      have := List.mem_range.1 hk
      simp only [Function.comp, Nat.zero_add]
      rw [if_neg (by omega), show 1 + k - 1 = k by omega]
    · rw [show 0 + 1 + (n - 2) = n - 1 by omega]
  obtain ⟨f1, f2, f3⟩ := unitStates_frame 0 (n - 1) (List.range n) first (Graph.empty : Graph F)
  have hcount : (unitStates 0 (n - 1) (List.range n) first (Graph.empty : Graph F)).count = n := by
    rw [f2]; simp [Graph.empty]
  congr 1
  refine Prod.ext ?_ ?_
  · dsimp only
    rw [addArcs_append topo _ (List.pairwise_map.2 h.distinct) (by
      intro a _
      unfold keys
      dsimp only
      rw [f1]
      simp [Graph.empty])]
    dsimp only
    rw [hstates, f1, hcount]
    rfl
  · dsimp only
    push_cast
    omega

theorem unitHmm_good [LT F] [Zero F] (topo : List (Arc F)) (n first : ℕ) (h : ValidTopo topo n) :
    WellFormed (unitHmm topo n first) ∧ SingleEntry (unitHmm topo n first)
    ∧ SingleExit (unitHmm topo n first) := by
  have hn := h.size
  have hid : (unitHmm topo n first).states.map Prod.fst = List.range n := by
    unfold unitHmm
    rw [List.map_map]
    exact List.map_id _
  have hpdf : ∀ i, 0 < i → i < n - 1 → HasPdf (unitHmm topo n first) i := by
    intro i h1 h2
    refine ⟨first + (i - 1), List.mem_map.2 ⟨i, List.mem_range.2 (by omega), ?_⟩⟩
    rw [if_neg (by omega)]
  refine ⟨⟨hid ▸ List.nodup_range, ?_, h.distinct, ?_, h.positive, ⟨0, rfl, ?_⟩, ⟨n - 1, rfl, ?_⟩⟩, ?_, ?_⟩
  · intro s hs
    have : s.1 ∈ (unitHmm topo n first).states.map Prod.fst := List.mem_map.2 ⟨s, hs, rfl⟩
    rw [hid] at this
    exact List.mem_range.1 this
  · intro a ha
    rw [hid]
    exact ⟨List.mem_range.2 (h.below a ha).1, List.mem_range.2 (h.below a ha).2⟩
  · rw [hid]; exact List.mem_range.2 (by omega)
  · rw [hid]; exact List.mem_range.2 (by omega)
  · obtain ⟨a, ha, h1, h2, h3, h4⟩ := h.entry
    exact ⟨a, ha, by rw [h1]; rfl, hpdf _ h2 h3, fun b hb hbs => h4 b hb (hbs.trans h1)⟩
  · obtain ⟨a, ha, h1, h2, h3, h4⟩ := h.exit
    exact ⟨a, ha, by rw [h1]; rfl, hpdf _ h2 h3, fun b hb hbs => h4 b hb (hbs.trans h1)⟩

theorem unitHmm_emitting [LT F] [Zero F] (topo : List (Arc F)) (n first : ℕ) (h : ValidTopo topo n) :
    0 < countEmitting (unitHmm topo n first) := by
  obtain ⟨a, ha, h1, ⟨p, hp⟩, _⟩ := (unitHmm_good topo n first h).2.1
  unfold countEmitting
  rw [List.length_pos_iff]
  exact List.ne_nil_of_mem (List.mem_filter.2 ⟨hp, rfl⟩)

theorem makeGroup_ok [LT F] [Zero F] (topo : List (Arc F)) (n : ℕ) (h : ValidTopo topo n)
    (names : List String) (first : ℕ) (us : List (String × Graph F)) (tot : ℕ) (hn : names.Nodup)
    (hd : ∀ x ∈ names, x ∉ us.map Prod.fst) :
    ∃ (first' : ℕ) (new : List (String × Graph F)) (tot' : ℕ), makeGroup topo names ((first : ℤ), us, tot)
        = .ok ((first' : ℤ), us ++ new, tot')
      ∧ new.map Prod.fst = names ∧ (∀ p ∈ new, ∃ f, p.2 = unitHmm topo n f)
      ∧ (names ≠ [] → 0 < tot') := by
  induction names generalizing first us tot with
  | nil => exact ⟨first, [], tot, by simp [makeGroup], rfl, by simp, by simp⟩
  | cons name names ih =>
    rw [List.nodup_cons] at hn
    simp only [makeGroup, createUnitGraph_valid topo n first h]
    rw [dictSet_new _ _ _ (hd name List.mem_cons_self)]
    obtain ⟨f', new, tot', h1, h2, h3, h4⟩ := ih (first + (n - 2)) (us ++ [(name, unitHmm topo n first)])
      (tot + countEmitting (unitHmm topo n first)) hn.2 (by
        intro x hx hmem
        simp only [List.map_append, List.map_cons, List.map_nil, List.mem_append,
          List.mem_singleton] at hmem
        rcases hmem with hmem | rfl
        · exact hd x (List.mem_cons_of_mem _ hx) hmem
        · exact hn.1 hx)
    refine ⟨f', (name, unitHmm topo n first) :: new, tot', ?_, by simp [h2], ?_, ?_⟩
    · rw [h1]; simp
    · intro p hp
      rcases List.mem_cons.1 hp with rfl | hp
      · exact ⟨first, rfl⟩
      · exact h3 p hp
    · intro _
      by_cases hne : names = []
      · subst hne
        have hnew : new = [] := List.map_eq_nil_iff.1 h2
        subst hnew
        simp only [makeGroup] at h1
        have := congrArg (fun r => r.toOption.map (fun x => x.2.2)) h1
        simp only [Except.toOption, Option.map_some, Option.some.injEq] at this
        have := unitHmm_emitting topo n first h
        omega
      · exact h4 hne

theorem makeGroups_ok [LT F] [Zero F] (gconf : List (String × List (Arc F)))
    (hgn : (gconf.map Prod.fst).Nodup)
    (gs : List (String × List String)) (bound : Bool) (first : ℕ) (us : List (String × Graph F)) (tot : ℕ)
    (hv : ∀ g ∈ gs, g.2 ≠ [] ∧ ∃ topo n, (g.1, topo) ∈ gconf ∧ ValidTopo topo n)
    (hn : (gs.flatMap Prod.snd).Nodup)
    (hd : ∀ x ∈ gs.flatMap Prod.snd, x ∉ us.map Prod.fst) :
    ∃ (st : ℤ × List (String × Graph F) × ℕ) (new : List (String × Graph F)),
      makeGroups gconf gs bound ((first : ℤ), us, tot) = .ok st ∧ st.2.1 = us ++ new
      ∧ new.map Prod.fst = gs.flatMap Prod.snd
      ∧ ∀ p ∈ new, ∃ g ∈ gs, p.1 ∈ g.2 ∧ ∀ topo n, (g.1, topo) ∈ gconf → ValidTopo topo n →
          ∃ f, p.2 = unitHmm topo n f := by
  induction gs generalizing bound first us tot with
  | nil => exact ⟨_, [], rfl, by simp, rfl, by simp⟩
  | cons gn gs ih =>
    obtain ⟨group, names⟩ := gn
    simp only [List.flatMap_cons] at hn hd ⊢
    rw [List.nodup_append] at hn
    obtain ⟨hne, topo, n, hm, ht⟩ := hv (group, names) List.mem_cons_self
    dsimp only at hne hm
    obtain ⟨f', new1, tot', h1, h2, h3, h4⟩ := makeGroup_ok topo n ht names first us 0 hn.1
      (fun x hx => hd x (List.mem_append_left _ hx))
    have hpos := h4 hne
    simp only [makeGroups]
    rw [if_neg (fun h => hne h.1), dictGet_of_mem _ _ _ hgn hm]
    dsimp only
    rw [h1]
    dsimp only
    have hcp : createPdfs tot' = .ok tot' := by unfold createPdfs; rw [if_neg (by omega)]
    rw [hcp]
    dsimp only
    obtain ⟨st, new2, i1, i2, i3, i4⟩ := ih true f' (us ++ new1) (tot + tot')
      (fun g hg => hv g (List.mem_cons_of_mem _ hg)) hn.2.1 (by
        intro x hx hmem
        rw [List.map_append, List.mem_append, h2] at hmem
        rcases hmem with hmem | hmem
        · exact hd x (List.mem_append_right _ hx) hmem
        · exact hn.2.2 x hmem x hx rfl)
    refine ⟨st, new1 ++ new2, i1, by rw [i2, List.append_assoc], by rw [List.map_append, h2, i3], ?_⟩
    intro p hp
    rcases List.mem_append.1 hp with hp | hp
    · refine ⟨(group, names), List.mem_cons_self, h2 ▸ List.mem_map.2 ⟨p, hp, rfl⟩, ?_⟩
      intro topo' n' hm' ht'
      have htt : topo' = topo := congrArg Prod.snd (List.inj_on_of_nodup_map hgn hm' hm rfl)
      subst htt
      have hnn : n' = n := by
        have e1 := validTopo_ids _ _ ht
        have e2 := validTopo_ids _ _ ht'
        have := congrArg List.length (e1.symm.trans e2)
        simpa using this.symm
      subst hnn
      exact h3 p hp
    · obtain ⟨g, hg, h5, h6⟩ := i4 p hp
      exact ⟨g, List.mem_cons_of_mem _ hg, h5, h6⟩

/-- Grouping the lines. -/
theorem groupUnits_ok (ls : List (String × String)) (d : List (String × List String))
    (hn : (d.map Prod.fst).Nodup) (h : ∀ l ∈ ls, l.2 ∈ d.map Prod.fst) :
    ∃ d', groupUnits ls d = .ok d' ∧ d'.map Prod.fst = d.map Prod.fst
      ∧ ∀ g names, (g, names) ∈ d' → ∃ names0, (g, names0) ∈ d
        ∧ names = names0 ++ (ls.filter (fun l => l.2 = g)).map Prod.fst := by
  induction ls generalizing d with
  | nil => exact ⟨d, rfl, rfl, fun g names hg => ⟨names, hg, by simp⟩⟩
  | cons l ls ih =>
    obtain ⟨name, group⟩ := l
    obtain ⟨⟨group', names⟩, hm, hgg⟩ := List.mem_map.1 (h (name, group) List.mem_cons_self)
    dsimp only at hgg
    subst hgg
    simp only [groupUnits, dictGet_of_mem d _ _ hn hm]
    have hk : (dictSet d group' (names ++ [name])).map Prod.fst = d.map Prod.fst := by
      rw [dictSet_keys, if_pos (List.mem_map.2 ⟨_, hm, rfl⟩)]
    obtain ⟨d', h1, h2, h3⟩ := ih (dictSet d group' (names ++ [name])) (hk ▸ hn) (fun l hl => by
      rw [hk]; exact h l (List.mem_cons_of_mem _ hl))
    refine ⟨d', h1, h2.trans hk, ?_⟩
    intro g ns hg
    obtain ⟨ns0, h4, h5⟩ := h3 g ns hg
    by_cases hgq : group' = g
    · subst hgq
      have h4' : (group', names ++ [name]) ∈ dictSet d group' (names ++ [name]) := by
        unfold dictSet
        rw [if_pos (List.mem_map.2 ⟨_, hm, rfl⟩)]
        exact List.mem_map.2 ⟨_, hm, by simp⟩
      have : ns0 = names ++ [name] :=
        congrArg Prod.snd (List.inj_on_of_nodup_map (hk ▸ hn) h4 h4' rfl)
      refine ⟨names, hm, ?_⟩
      rw [h5, this, List.filter_cons_of_pos (by simp)]
      simp
    · refine ⟨ns0, ?_, ?_⟩
      · rcases dictSet_mem _ _ _ _ h4 with h4 | h4
        · exact h4
        · exact absurd (congrArg Prod.fst h4).symm hgq
      · rw [h5, List.filter_cons_of_neg (by simpa using hgq)]

end Verif.Pipeline
