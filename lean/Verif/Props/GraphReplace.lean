import Verif.Lemmas.GraphReplace
import Mathlib.Tactic.NormNum

/-!
# Properties C03, C04: replacing a state by a graph
-/

namespace Verif.Props

open Verif Verif.Graph

variable {F : Type}

/-- Every arc of the graph connects identifiers that were handed out. -/
def ArcsBelow (g : Graph F) : Prop := ∀ a ∈ g.arcs, a.start < g.count ∧ a.stop < g.count

/-- The copy of state `i` of `sub` gets the identifier after the ones already used, in order. -/
def copyId (g sub : Graph F) (i : ℕ) : ℕ := g.count + sub.ids.idxOf i

/-- **C03.** Replacing a state without self-loop by a well-formed graph succeeds and gives exactly: the
old states minus the replaced one followed by the copies in order with their pdf ids; the arcs not
touching the replaced state, the copied arcs, and the arcs leaving/entering the replaced state
redirected to the copy of the end/start state, all with their weights. -/
theorem C03_replace_state (g sub : Graph F) (old a b : ℕ) (hg : g.Inv) (hb : ArcsBelow g)
    (hold : old ∈ g.ids) (hloop : ∀ x ∈ g.arcs, ¬ (x.start = old ∧ x.stop = old))
    (hsub : sub.Inv) (hsa : ∀ x ∈ sub.arcs, x.start ∈ sub.ids ∧ x.stop ∈ sub.ids)
    (ha : sub.startState = some a) (hai : a ∈ sub.ids)
    (hbe : sub.endState = some b) (hbi : b ∈ sub.ids) :
    (g.replaceState old sub).2 = none
    ∧ (g.replaceState old sub).1.states = g.states.filter (fun s => s.1 ≠ old)
        ++ sub.states.mapIdx (fun k s => (g.count + k, s.2))
    ∧ (g.replaceState old sub).1.arcs.Perm
        (g.arcs.filter (fun x => x.start ≠ old ∧ x.stop ≠ old)
          ++ sub.arcs.map (fun x => ⟨copyId g sub x.start, copyId g sub x.stop, x.weight⟩)
          ++ (g.arcs.filter (fun x => x.start = old)).map (fun x => ⟨copyId g sub b, x.stop, x.weight⟩)
          ++ (g.arcs.filter (fun x => x.stop = old)).map (fun x => ⟨x.start, copyId g sub a, x.weight⟩))
    ∧ (g.replaceState old sub).1.count = g.count + sub.states.length
    ∧ (g.replaceState old sub).1.startState = g.startState
    ∧ (g.replaceState old sub).1.endState = g.endState := by
  have hold' := hg.ids_lt old hold
  obtain ⟨cs, ca, cst, cen⟩ := copyStates_states sub.states g
  have cc := copyStates_count sub.states g
  have clook := copyStates_lookup sub.states g
  set g1 := (g.copyStates sub.states).1 with hg1
  set m := (g.copyStates sub.states).2 with hm
  have hcp : ∀ i ∈ sub.ids, m.lookup i = some (copyId g sub i) := fun i hi => by
    rw [clook]; exact if_pos hi
  have hcpge : ∀ i, g.count ≤ copyId g sub i := fun i => Nat.le_add_right _ _
  have hcpinj : ∀ i ∈ sub.ids, ∀ j ∈ sub.ids, copyId g sub i = copyId g sub j → i = j := by
    intro i hi j hj h
    exact (List.idxOf_inj hi).1 (Nat.add_left_cancel h)
  set cpArc : Arc F → Arc F := fun x => ⟨copyId g sub x.start, copyId g sub x.stop, x.weight⟩ with hcpArc
  have k1 : g1.keys = g.keys := by unfold keys; rw [ca]
  have hkbelow : ∀ k ∈ g.keys, k.1 < g.count ∧ k.2 < g.count := by
    intro k hk
    obtain ⟨x, hx, rfl⟩ := List.mem_map.1 hk
    exact hb x hx
  -- copied arcs
  have hcopied : copyArcs m sub.arcs g1 = ({ g1 with arcs := g.arcs ++ sub.arcs.map cpArc }, none) := by
    rw [copyArcs_ok m (copyId g sub) sub.arcs g1 (fun x hx => ⟨hcp _ (hsa x hx).1, hcp _ (hsa x hx).2⟩)]
    congr 1
    rw [addArcs_append, ca]
    · rw [List.map_map]
      have hk := hsub.keys_nodup
      unfold keys at hk
      rw [List.nodup_map_iff_inj_on (List.Nodup.of_map _ hk)]
      intro x hx y hy hxy
      have h1 : copyId g sub x.start = copyId g sub y.start := congrArg Prod.fst hxy
      have h2 : copyId g sub x.stop = copyId g sub y.stop := congrArg Prod.snd hxy
      have e1 := hcpinj _ (hsa x hx).1 _ (hsa y hy).1 h1
      have e2 := hcpinj _ (hsa x hx).2 _ (hsa y hy).2 h2
      exact List.inj_on_of_nodup_map hk hx hy (Prod.ext e1 e2)
    · intro x hx hk
      obtain ⟨y, _, rfl⟩ := List.mem_map.1 hx
      rw [k1] at hk
      have := (hkbelow _ hk).1
      exact absurd (hcpge y.start) (not_le.2 this)
  set g2 : Graph F := { g1 with arcs := g.arcs ++ sub.arcs.map cpArc } with hg2
  have houts : g2.arcsFrom (some old) = g.arcs.filter (fun x => x.start = old) := by
    change (g.arcs ++ sub.arcs.map cpArc).filter (fun x => decide (x.start = old)) = _
    rw [List.filter_append]
    have : (sub.arcs.map cpArc).filter (fun x => decide (x.start = old)) = [] := by
      rw [List.filter_eq_nil_iff]
      intro x hx
      obtain ⟨y, _, rfl⟩ := List.mem_map.1 hx
      have := hcpge y.start
      simp only [cpArc, decide_eq_true_eq]
      omega
    rw [this, List.append_nil]
  have hins : g2.arcsTo (some old) = g.arcs.filter (fun x => x.stop = old) := by
    change (g.arcs ++ sub.arcs.map cpArc).filter (fun x => decide (x.stop = old)) = _
    rw [List.filter_append]
    have : (sub.arcs.map cpArc).filter (fun x => decide (x.stop = old)) = [] := by
      rw [List.filter_eq_nil_iff]
      intro x hx
      obtain ⟨y, _, rfl⟩ := List.mem_map.1 hx
      have := hcpge y.stop
      simp only [cpArc, decide_eq_true_eq]
      omega
    rw [this, List.append_nil]
  set outs := g.arcs.filter (fun x => x.start = old) with houtsdef
  set ins := g.arcs.filter (fun x => x.stop = old) with hinsdef
  have mouts : ∀ x ∈ outs, x ∈ g.arcs ∧ x.start = old := fun x hx => by
    have := List.mem_filter.1 hx; exact ⟨this.1, by simpa using this.2⟩
  have mins : ∀ x ∈ ins, x ∈ g.arcs ∧ x.stop = old := fun x hx => by
    have := List.mem_filter.1 hx; exact ⟨this.1, by simpa using this.2⟩
  set newOut : List (Arc F) := outs.map (fun x => ⟨copyId g sub b, x.stop, x.weight⟩) with hnewOut
  set newIn : List (Arc F) := ins.map (fun x => ⟨x.start, copyId g sub a, x.weight⟩) with hnewIn
  have hkg : (g.arcs.map Arc.key).Nodup := hg.keys_nodup
  have hko : (outs.map Arc.key).Nodup := hkg.sublist (List.filter_sublist.map _)
  have hki : (ins.map Arc.key).Nodup := hkg.sublist (List.filter_sublist.map _)
  -- the redirected arcs are new
  have hnewkeys : ((newOut ++ newIn).map Arc.key).Nodup := by
    rw [List.map_append, List.nodup_append]
    refine ⟨?_, ?_, ?_⟩
    · rw [hnewOut, List.map_map, List.nodup_map_iff_inj_on (List.Nodup.of_map _ hko)]
      intro x hx y hy hxy
      have h2 : x.stop = y.stop := congrArg Prod.snd hxy
      exact List.inj_on_of_nodup_map hko hx hy
        (Prod.ext ((mouts x hx).2.trans (mouts y hy).2.symm) h2)
    · rw [hnewIn, List.map_map, List.nodup_map_iff_inj_on (List.Nodup.of_map _ hki)]
      intro x hx y hy hxy
      have h2 : x.start = y.start := congrArg Prod.fst hxy
      exact List.inj_on_of_nodup_map hki hx hy
        (Prod.ext h2 ((mins x hx).2.trans (mins y hy).2.symm))
    · intro k hk k' hk' hkk
      obtain ⟨x, hx, rfl⟩ := List.mem_map.1 hk
      obtain ⟨x', _, rfl⟩ := List.mem_map.1 hx
      obtain ⟨y, hy, rfl⟩ := List.mem_map.1 hk'
      obtain ⟨y', hy', rfl⟩ := List.mem_map.1 hy
      have h1 : copyId g sub b = y'.start := congrArg Prod.fst hkk
      have h2 := (hb y' (mins y' hy').1).1
      have h3 := hcpge b
      omega
  have k2 : g2.keys = g.keys ++ (sub.arcs.map cpArc).map Arc.key := by
    simp [keys, hg2]
  have hnewdisj : ∀ x ∈ newOut ++ newIn, x.key ∉ g2.keys := by
    intro x hx hk
    rw [k2, List.mem_append] at hk
    rcases List.mem_append.1 hx with hx | hx
    · obtain ⟨y, hy, rfl⟩ := List.mem_map.1 hx
      rcases hk with hk | hk
      · exact absurd (hcpge b) (not_le.2 (hkbelow _ hk).1)
      · obtain ⟨z, hz, hzk⟩ := List.mem_map.1 hk
        obtain ⟨z', _, rfl⟩ := List.mem_map.1 hz
        have h1 : copyId g sub z'.stop = y.stop := congrArg Prod.snd hzk
        have h2 := (hb y (mouts y hy).1).2
        have h3 := hcpge z'.stop
        omega
    · obtain ⟨y, hy, rfl⟩ := List.mem_map.1 hx
      rcases hk with hk | hk
      · exact absurd (hcpge a) (not_le.2 (hkbelow _ hk).2)
      · obtain ⟨z, hz, hzk⟩ := List.mem_map.1 hk
        obtain ⟨z', _, rfl⟩ := List.mem_map.1 hz
        have h1 : copyId g sub z'.start = y.start := congrArg Prod.fst hzk
        have h2 := (hb y (mins y hy).1).1
        have h3 := hcpge z'.start
        omega
  have hadd := addArcs_append (newOut ++ newIn) g2 hnewkeys hnewdisj
  set g3 : Graph F := { g2 with arcs := g2.arcs ++ (newOut ++ newIn) } with hg3
  -- removal of the old arcs
  have hdelkeys : ((outs ++ ins).map Arc.key).Nodup := by
    rw [List.map_append, List.nodup_append]
    refine ⟨hko, hki, ?_⟩
    intro k hk k' hk' hkk
    obtain ⟨x, hx, rfl⟩ := List.mem_map.1 hk
    obtain ⟨y, hy, rfl⟩ := List.mem_map.1 hk'
    have h1 : x.stop = y.stop := congrArg Prod.snd hkk
    exact hloop x (mouts x hx).1 ⟨(mouts x hx).2, h1.trans (mins y hy).2⟩
  have hdelmem : ∀ x ∈ outs ++ ins, x.key ∈ g3.keys := by
    intro x hx
    have hxg : x ∈ g.arcs := by
      rcases List.mem_append.1 hx with hx | hx
      · exact (mouts x hx).1
      · exact (mins x hx).1
    refine List.mem_map.2 ⟨x, ?_, rfl⟩
    exact List.mem_append_left _ (List.mem_append_left _ hxg)
  have hrem := removeArcs_ok (outs ++ ins) g3 hdelkeys hdelmem
  have hdel_iff : ∀ x : Arc F, x ∈ g.arcs →
      (x.key ∈ (outs ++ ins).map Arc.key ↔ (x.start = old ∨ x.stop = old)) := by
    intro x hx
    constructor
    · intro h
      obtain ⟨y, hy, hyk⟩ := List.mem_map.1 h
      rcases List.mem_append.1 hy with hy | hy
      · left; rw [← (mouts y hy).2]; exact (congrArg Prod.fst hyk).symm
      · right; rw [← (mins y hy).2]; exact (congrArg Prod.snd hyk).symm
    · rintro (h | h)
      · exact List.mem_map.2 ⟨x, List.mem_append_left _ (List.mem_filter.2 ⟨hx, by simpa using h⟩), rfl⟩
      · exact List.mem_map.2 ⟨x, List.mem_append_right _ (List.mem_filter.2 ⟨hx, by simpa using h⟩), rfl⟩
  have hdelg : ∀ k ∈ (outs ++ ins).map Arc.key, k.1 < g.count ∧ k.2 < g.count := by
    intro k hk
    obtain ⟨x, hx, rfl⟩ := List.mem_map.1 hk
    rcases List.mem_append.1 hx with hx | hx
    · exact hb x (mouts x hx).1
    · exact hb x (mins x hx).1
  have hfilter : g3.arcs.filter (fun x => decide (x.key ∉ (outs ++ ins).map Arc.key))
      = g.arcs.filter (fun x => x.start ≠ old ∧ x.stop ≠ old) ++ sub.arcs.map cpArc ++ newOut ++ newIn := by
    change ((g.arcs ++ sub.arcs.map cpArc) ++ (newOut ++ newIn)).filter _ = _
    rw [List.filter_append, List.filter_append, List.append_assoc, List.append_assoc, List.append_assoc]
    congr 1
    · apply List.filter_congr
      intro x hx
      simp only [hdel_iff x hx, not_or]
    · congr 1
      · rw [List.filter_eq_self]
        intro x hx
        obtain ⟨y, _, rfl⟩ := List.mem_map.1 hx
        simp only [decide_eq_true_eq]
        intro h
        exact absurd (hcpge y.start) (not_le.2 (hdelg _ h).1)
      · rw [List.filter_eq_self]
        intro x hx
        simp only [decide_eq_true_eq]
        intro h
        rcases List.mem_append.1 hx with hx | hx
        · obtain ⟨y, _, rfl⟩ := List.mem_map.1 hx
          exact absurd (hcpge b) (not_le.2 (hdelg _ h).1)
        · obtain ⟨y, _, rfl⟩ := List.mem_map.1 hx
          exact absurd (hcpge a) (not_le.2 (hdelg _ h).2)
  -- assemble
  have hids3 : old ∈ g1.ids := by
    unfold ids; rw [cs, List.map_append]; exact List.mem_append_left _ hold
  have hfin : g.replaceState old sub
      = ({ g1 with arcs := g.arcs.filter (fun x => x.start ≠ old ∧ x.stop ≠ old)
              ++ sub.arcs.map cpArc ++ newOut ++ newIn
                   states := g1.states.filter (fun s => s.1 ≠ old) }, none) := by
    unfold replaceState
    simp only [← hg1, ← hm]
    rw [hcopied]
    simp only
    rw [houts, hins, ha, hbe]
    simp only [newId]
    rw [hcp a hai, hcp b hbi, redirectOut_ok, redirectIn_ok]
    simp only
    rw [hadd, hrem]
    simp only
    rw [hfilter]
    exact if_pos hids3
  rw [hfin]
  refine ⟨rfl, ?_, List.Perm.refl _, cc, cst, cen⟩
  change g1.states.filter _ = _
  rw [cs, List.filter_append]
  congr 1
  rw [List.filter_eq_self]
  intro s hs
  obtain ⟨k, hk, rfl⟩ := List.mem_mapIdx.1 hs
  simp only [decide_eq_true_eq]
  omega

/-- **C04 (negation).** Replacing a state which has an arc to itself always raises `KeyError`, for
every graph given as replacement. -/
theorem C04_self_loop_fails (g sub : Graph F) (old : ℕ)
    (hloop : ∃ x ∈ g.arcs, x.start = old ∧ x.stop = old) :
    (g.replaceState old sub).2 = some .keyError := by
  unfold replaceState
  simp only
  have hc := copyArcs_err (g.copyStates sub.states).2 sub.arcs (g.copyStates sub.states).1
  split
  · rename_i g2 e he
    rw [he] at hc
    simpa using hc.1
  · rename_i g2 he
    rw [he] at hc
    split
    · rename_i e herr
      rw [redirectOut_err _ _ _ herr]
    · split
      · rename_i e herr
        rw [redirectIn_err _ _ _ herr]
      · rename_i newOut _ _ newIn _
        have hr := removeArcs_err (g2.arcsFrom (some old) ++ g2.arcsTo (some old))
          (g2.addArcs (newOut ++ newIn))
        have hnot : ¬ (removeArcs (g2.arcsFrom (some old) ++ g2.arcsTo (some old))
            (g2.addArcs (newOut ++ newIn))).2 = none := by
          intro hnone
          have hnd := (hr.1 hnone).1
          obtain ⟨x, hx, hx1, hx2⟩ := hloop
          have hx' : x ∈ g2.arcs := hc.2 x (by rw [(copyStates_states sub.states g).2.1]; exact hx)
          rw [List.map_append, List.nodup_append] at hnd
          exact hnd.2.2 x.key
            (List.mem_map.2 ⟨x, List.mem_filter.2 ⟨hx', by simpa using hx1⟩, rfl⟩) x.key
            (List.mem_map.2 ⟨x, List.mem_filter.2 ⟨hx', by simpa using hx2⟩, rfl⟩) rfl
        split
        · rename_i g3 e he3
          rw [he3] at hr hnot
          rcases hr.2 with h | h
          · exact absurd h hnot
          · exact h
        · rename_i g3 he3
          rw [he3] at hnot
          exact absurd rfl hnot

/-! Concrete graphs. -/

/-- start → phone → end -/
def demoMain : Graph ℚ :=
  ⟨3, [(0, none), (1, none), (2, none)], [⟨0, 1, 1⟩, ⟨1, 2, 1⟩], some 0, some 2⟩

/-- A one-state unit: non-emitting 0, emitting 1 with a self-loop, non-emitting 2. -/
def demoUnit : Graph ℚ :=
  ⟨3, [(0, none), (1, some 7), (2, none)], [⟨0, 1, 1⟩, ⟨1, 1, 1/2⟩, ⟨1, 2, 1/2⟩], some 0, some 2⟩

example : (demoMain.replaceState 1 demoUnit).2 = none :=
  (C03_replace_state demoMain demoUnit 1 0 2 ⟨by decide, by decide, by decide⟩ (by unfold ArcsBelow; decide +kernel)
    (by decide) (by decide +kernel) ⟨by decide, by decide, by decide⟩ (by decide +kernel) rfl (by decide) rfl
    (by decide)).1
example : (demoMain.replaceState 1 demoUnit).1.states
    = [(0, none), (2, none), (3, none), (4, some 7), (5, none)] := by decide +kernel
/-- The witness of C04: replacing the emitting state of the unit. -/
example : (demoUnit.replaceState 1 demoMain).2 = some .keyError := by decide +kernel

end Verif.Props
