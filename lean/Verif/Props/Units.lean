import Verif.Lemmas.Units
import Verif.Props.LoopGraph
import Verif.Props.Pipeline

/-!
# Properties: the HMMs of the units (C84) and the whole chain of commands (C83)
-/

namespace Verif.Props

open Verif Verif.Spec Verif.Graph Verif.Pipeline

variable {F : Type}

/-- **C84 (partial).** Let the groups of the configuration have distinct names and sensible topologies, and
let the units have distinct names and known groups, every group of the configuration having a unit. Then
`mkphones` succeeds; there is exactly one HMM per unit, which has the topology of the unit's group; and the
pdf ids of the HMMs taken one after the other are `0, 1, …, n - 1`, `n` being the number of emission
models. Partial: the command also fails when a group of the configuration has no unit, see
`C84_group_without_unit_fails`. -/
theorem C84_units_partial [LT F] [Zero F] (conf : List (String × List (Arc F)))
    (lines : List (String × String)) (hc : (conf.map Prod.fst).Nodup) (hn : (lines.map Prod.fst).Nodup)
    (ht : ∀ c ∈ conf, ∃ n, ValidTopo c.2 n) (hg : ∀ l ∈ lines, l.2 ∈ conf.map Prod.fst)
    (hu : ∀ c ∈ conf, ∃ l ∈ lines, l.2 = c.1) :
    ∃ hmms n, mkphones conf lines = .ok (hmms, n)
      ∧ (hmms.map Prod.fst).Perm (lines.map Prod.fst)
      ∧ (∀ l ∈ lines, ∀ topo m, (l.2, topo) ∈ conf → ValidTopo topo m →
          ∃ first, (l.1, unitHmm topo m first) ∈ hmms)
      ∧ hmms.flatMap (fun p => p.2.states.filterMap Prod.snd) = List.range n := by
  have hgc : groupsConf conf = conf := by
    unfold groupsConf
    have := foldl_dictSet_new (α := String) (β := List (Arc F)) Prod.fst Prod.snd conf [] hc (by simp)
    rw [this, List.nil_append]
    exact List.map_id _
  have hk0 : (conf.map fun p => (p.1, ([] : List String))).map Prod.fst = conf.map Prod.fst := by
    rw [List.map_map]; rfl
  obtain ⟨d, hd, hdk, hdn⟩ := groupUnits_ok lines (conf.map fun p => (p.1, [])) (hk0 ▸ hc)
    (fun l hl => by rw [hk0]; exact hg l hl)
  have hmem : ∀ g names, (g, names) ∈ d → names = (lines.filter (fun l => l.2 = g)).map Prod.fst := by
    intro g names h
    obtain ⟨n0, h0, h1⟩ := hdn g names h
    obtain ⟨c, _, hc'⟩ := List.mem_map.1 h0
    have : n0 = [] := (congrArg Prod.snd hc').symm
    rw [h1, this, List.nil_append]
  have hperm : (d.flatMap Prod.snd).Perm (lines.map Prod.fst) := by
    have := groupUnits_perm lines _ d (hk0 ▸ hc) hd
    rwa [List.flatMap_map, show conf.flatMap (fun p => ([] : List String)) = [] by simp,
      List.nil_append] at this
  obtain ⟨st, new, h1, h2, h3, h4⟩ := makeGroups_ok conf hc d false 0 [] 0 (by
    intro g hgd
    have hgm : g.1 ∈ conf.map Prod.fst := by
      rw [← hk0, ← hdk]; exact List.mem_map.2 ⟨g, hgd, rfl⟩
    obtain ⟨c, hcm, hcg⟩ := List.mem_map.1 hgm
    obtain ⟨l, hl, hlc⟩ := hu c hcm
    obtain ⟨n, hv⟩ := ht c hcm
    refine ⟨?_, c.2, n, ?_, hv⟩
    · rw [hmem g.1 g.2 hgd]
      apply List.ne_nil_of_mem (a := l.1)
      exact List.mem_map.2 ⟨l, List.mem_filter.2 ⟨hl, by simpa using hlc.trans hcg⟩, rfl⟩
    · rw [← hcg]; exact hcm) (hperm.nodup_iff.2 hn) (by simp)
  rw [List.nil_append] at h2
  have hmk : mkphones conf lines = .ok (new, st.2.2) := by
    unfold mkphones
    dsimp only
    rw [hgc, hd]
    dsimp only
    rw [show ((0 : ℤ), ([] : List (String × Graph F)), 0) = (((0 : ℕ) : ℤ), [], 0) from rfl, h1]
    dsimp only
    rw [h2]
  obtain ⟨m1, ⟨sp, m2⟩, m3⟩ := mkphones_chain conf lines new st.2.2 hn hmk
  have hshape : ∀ p ∈ new, ∃ topo n f, ValidTopo topo n ∧ p.2 = unitHmm topo n f := by
    intro p hp
    obtain ⟨g, hgd, _, hall⟩ := h4 p hp
    have hgm : g.1 ∈ conf.map Prod.fst := by
      rw [← hk0, ← hdk]; exact List.mem_map.2 ⟨g, hgd, rfl⟩
    obtain ⟨c, hcm, hcg⟩ := List.mem_map.1 hgm
    obtain ⟨n, hv⟩ := ht c hcm
    obtain ⟨f, hf⟩ := hall c.2 n (by rw [← hcg]; exact hcm) hv
    exact ⟨c.2, n, f, hv, hf⟩
  refine ⟨new, st.2.2, hmk, m1, ?_, ?_⟩
  · intro l hl topo m htm hv
    obtain ⟨p, hp, hpl⟩ := List.mem_map.1 (m1.mem_iff.2 (List.mem_map.2 ⟨l, hl, rfl⟩))
    obtain ⟨g, hgd, hpg, hall⟩ := h4 p hp
    have hgl : g.1 = l.2 := by
      rw [hmem g.1 g.2 hgd] at hpg
      obtain ⟨l', hl', hll⟩ := List.mem_map.1 hpg
      obtain ⟨hl'm, hl'g⟩ := List.mem_filter.1 hl'
      have : l' = l := List.inj_on_of_nodup_map hn hl'm hl (hll.trans hpl)
      subst this
      exact (of_decide_eq_true hl'g).symm
    obtain ⟨f, hf⟩ := hall topo m (by rw [hgl]; exact htm) hv
    refine ⟨f, ?_⟩
    rw [← hpl, ← hf]
    exact hp
  · have := chain_range 0 sp (new.map Prod.snd) m2 le_rfl (by
      intro g hgm
      obtain ⟨p, hp, rfl⟩ := List.mem_map.1 hgm
      obtain ⟨topo, n, f, hv, hf⟩ := hshape p hp
      rw [hf]
      exact (unitHmm_good topo n f hv).1.arcs_closed) (by
      intro g hgm
      obtain ⟨p, hp, rfl⟩ := List.mem_map.1 hgm
      obtain ⟨topo, n, f, hv, hf⟩ := hshape p hp
      have := unitHmm_emitting topo n f hv
      rw [countEmitting_eq] at this
      rw [hf]
      exact List.ne_nil_of_length_pos this)
    rw [List.flatMap_map, List.map_map] at this
    rw [m3, List.range_eq_range']
    exact this

/-- Topologies with one and two emitting states are sensible. -/
theorem topoUnit_valid : ValidTopo topoUnit 3 := by
  refine ⟨by decide, by decide +kernel, by decide +kernel, by decide +kernel, by decide +kernel, ?_, ?_⟩
  · exact ⟨⟨0, 1, 1⟩, by decide +kernel⟩
  · exact ⟨⟨1, 2, 1/2⟩, by decide +kernel⟩

theorem topoSil_valid : ValidTopo topoSil 4 := by
  refine ⟨by decide, by decide +kernel, by decide +kernel, by decide +kernel, by decide +kernel, ?_, ?_⟩
  · exact ⟨⟨0, 1, 1⟩, by decide +kernel⟩
  · exact ⟨⟨2, 3, 1/4⟩, by decide +kernel⟩

theorem demo_conf_valid : ∀ c ∈ [("nsp", topoSil), ("sp", topoUnit)], ∃ n, ValidTopo c.2 n := by
  intro c hc
  rcases List.mem_cons.1 hc with rfl | hc
  · exact ⟨4, topoSil_valid⟩
  · rw [List.mem_singleton.1 hc]; exact ⟨3, topoUnit_valid⟩

-- the hypotheses are met by three units of two groups
example : ∃ hmms n, mkphones [("nsp", topoSil), ("sp", topoUnit)] demoLines = .ok (hmms, n)
    ∧ (∃ first, ("b", unitHmm topoUnit 3 first) ∈ hmms)
    ∧ hmms.flatMap (fun p => p.2.states.filterMap Prod.snd) = List.range n := by
  obtain ⟨hmms, n, h1, -, h3, h4⟩ := C84_units_partial [("nsp", topoSil), ("sp", topoUnit)] demoLines
    (by decide +kernel) (by decide +kernel) demo_conf_valid (by decide +kernel) (by decide +kernel)
  exact ⟨hmms, n, h1, h3 ("b", "sp") (by decide +kernel) topoUnit 3 (by simp) topoUnit_valid, h4⟩

/-- **C84 (negation).** A configured group without any unit makes the command fail, whatever the
topologies: `NameError` when it is the first group, and `ZeroDivisionError` when it is a later one and the
groups before it have units. -/
theorem C84_group_without_unit_fails [LT F] [Zero F] (conf rest : List (String × List (Arc F)))
    (empty : String × List (Arc F)) (lines : List (String × String))
    (hc : ((conf ++ empty :: rest).map Prod.fst).Nodup) (hn : (lines.map Prod.fst).Nodup)
    (ht : ∀ c ∈ conf, ∃ n, ValidTopo c.2 n)
    (hg : ∀ l ∈ lines, l.2 ∈ (conf ++ empty :: rest).map Prod.fst)
    (hu : ∀ c ∈ conf, ∃ l ∈ lines, l.2 = c.1) (he : ∀ l ∈ lines, l.2 ≠ empty.1) :
    mkphones (conf ++ empty :: rest) lines
      = .error (if conf = [] then .nameError else .zeroDivision) := by
  set all := conf ++ empty :: rest with hall
  have hgc : groupsConf all = all := by
    unfold groupsConf
    have := foldl_dictSet_new (α := String) (β := List (Arc F)) Prod.fst Prod.snd all [] hc (by simp)
    rw [this, List.nil_append]
    exact List.map_id _
  have hk0 : (all.map fun p => (p.1, ([] : List String))).map Prod.fst = all.map Prod.fst := by
    rw [List.map_map]; rfl
  obtain ⟨d, hd, hdk, hdn⟩ := groupUnits_ok lines (all.map fun p => (p.1, [])) (hk0 ▸ hc)
    (fun l hl => by rw [hk0]; exact hg l hl)
  have hmem : ∀ g names, (g, names) ∈ d → names = (lines.filter (fun l => l.2 = g)).map Prod.fst := by
    intro g names h
    obtain ⟨n0, h0, h1⟩ := hdn g names h
    obtain ⟨c, _, hc'⟩ := List.mem_map.1 h0
    have : n0 = [] := (congrArg Prod.snd hc').symm
    rw [h1, this, List.nil_append]
  have hperm : (d.flatMap Prod.snd).Perm (lines.map Prod.fst) := by
    have := groupUnits_perm lines _ d (hk0 ▸ hc) hd
    rwa [List.flatMap_map, show all.flatMap (fun p => ([] : List String)) = [] by simp,
      List.nil_append] at this
  have hdk' := hdk.trans hk0
  rw [hall, List.map_append, List.map_cons] at hdk'
  obtain ⟨d1, d', rfl, hd1, hd'⟩ := List.map_eq_append_iff.1 hdk'
  obtain ⟨e, d2, rfl, hE, -⟩ := List.map_eq_cons_iff.1 hd'
  have heE : e.2 = [] := by
    rw [hmem e.1 e.2 (by simp), List.map_eq_nil_iff, List.filter_eq_nil_iff]
    intro l hl
    simpa [hE] using he l hl
  have hnd := hperm.nodup_iff.2 hn
  rw [List.flatMap_append] at hnd
  have hmk : ∀ x, makeGroups all (d1 ++ e :: d2) false (0, [], 0) = .error x →
      mkphones all lines = .error x := by
    intro x hx
    unfold mkphones
    dsimp only
    rw [hgc, hd]
    dsimp only
    rw [hx]
  apply hmk
  by_cases hce : conf = []
  · subst hce
    have : d1 = [] := List.map_eq_nil_iff.1 hd1
    subst this
    obtain ⟨e1, e2⟩ := e
    dsimp only at heE
    subst heE
    simp [makeGroups]
  · rw [if_neg hce]
    obtain ⟨st, new, h1, -, -, -⟩ := makeGroups_ok all hc d1 false 0 [] 0 (by
      intro g hgd
      have hgm : g.1 ∈ conf.map Prod.fst := by rw [← hd1]; exact List.mem_map.2 ⟨g, hgd, rfl⟩
      obtain ⟨c, hcm, hcg⟩ := List.mem_map.1 hgm
      obtain ⟨l, hl, hlc⟩ := hu c hcm
      obtain ⟨n, hv⟩ := ht c hcm
      refine ⟨?_, c.2, n, ?_, hv⟩
      · rw [hmem g.1 g.2 (by simp [hgd])]
        apply List.ne_nil_of_mem (a := l.1)
        exact List.mem_map.2 ⟨l, List.mem_filter.2 ⟨hl, by simpa using hlc.trans hcg⟩, rfl⟩
      · rw [← hcg, hall]; exact List.mem_append_left _ hcm) (List.nodup_append.1 hnd).1 (by simp)
    have hne : d1 ≠ [] := by
      rintro rfl
      exact hce (List.map_eq_nil_iff.1 hd1.symm)
    have key : ∀ (gs : List (String × List String)) (b : Bool) (s : ℤ × List (String × Graph F) × ℕ) s',
        makeGroups all gs b s = .ok s' → (gs ≠ [] ∨ b = true) →
        makeGroups all (gs ++ e :: d2) b s = .error .zeroDivision := by
      intro gs
      induction gs with
      | nil =>
        intro b s s' _ hb
        have hb : b = true := by simpa using hb
        subst hb
        obtain ⟨e1, e2⟩ := e
        dsimp only at heE hE
        subst heE hE
        simp only [List.nil_append, makeGroups]
        rw [if_neg (by simp), dictGet_of_mem all empty.1 empty.2 hc (by simp [hall])]
        simp [makeGroup, createPdfs]
      | cons g gs ih =>
        intro b s s' h _
        obtain ⟨group, names⟩ := g
        simp only [List.cons_append, makeGroups] at h ⊢
        split at h
        · cases h
        · rename_i hb
          rw [if_neg hb]
          split at h
          · cases h
          · split at h
            · cases h
            · split at h
              · cases h
              · exact ih true _ _ h (Or.inr rfl)
    exact key d1 false _ _ h1 (Or.inl hne)

-- both branches happen
example : (mkphones [("nsp", topoSil), ("sp", topoUnit)] [("a", "sp")]).map (fun _ => ())
      = .error .nameError
    ∧ (mkphones [("nsp", topoSil), ("sp", topoUnit)] [("s", "nsp")]).map (fun _ => ())
      = .error .zeroDivision := by
  constructor
  · have := C84_group_without_unit_fails [] [("sp", topoUnit)] ("nsp", topoSil) [("a", "sp")]
      (by decide +kernel) (by decide +kernel) (by simp) (by decide +kernel) (by simp) (by decide +kernel)
    rw [List.nil_append] at this
    rw [this]; rfl
  · have := C84_group_without_unit_fails [("nsp", topoSil)] [] ("sp", topoUnit) [("s", "nsp")]
      (by decide +kernel) (by decide +kernel) (by
        intro c hc; rw [List.mem_singleton.1 hc]; exact ⟨4, topoSil_valid⟩)
      (by decide +kernel) (by decide +kernel) (by decide +kernel)
    rw [List.cons_append, List.nil_append] at this
    rw [this]; rfl

/-- **C83, C08 (from the configuration).** For every configuration and list of units as in
`C84_units_partial`, none of the units being named like a special symbol, the commands `mkphones`,
`mkphoneloopgraph` and `mkdecodegraph` succeed, the graph compiles, state `i` of the compiled graph emits
pdf `i`, there are as many states as emission models, and the decoding graph accepts exactly the
concatenations of sequences accepted by the HMMs of the allowed sequences of units. -/
theorem C83_from_configuration [Field F] [LinearOrder F] [IsStrictOrderedRing F]
    (conf : List (String × List (Arc F)))
    (lines : List (String × String)) (group : Option String)
    (hc : (conf.map Prod.fst).Nodup) (hn : (lines.map Prod.fst).Nodup)
    (hsp : ∀ u ∈ lines, u.1 ∉ ["\\<s\\>", "\\</s\\>", "#1"])
    (ht : ∀ c ∈ conf, ∃ n, ValidTopo c.2 n) (hg : ∀ l ∈ lines, l.2 ∈ conf.map Prod.fst)
    (hu : ∀ c ∈ conf, ∃ l ∈ lines, l.2 = c.1) :
    ∃ hmms n loop g entry exit c, mkphones conf lines = .ok (hmms, n)
      ∧ mkphoneloopgraph lines group = .ok loop ∧ mkdecodegraph loop hmms = .ok (g, entry, exit)
      ∧ g.compile = .ok c ∧ c.pdfMapping = List.range n
      ∧ ∀ w, Accepts g w ↔ ∃ us ws, LoopSeq lines group us
        ∧ List.Forall₂ (fun u v => ∃ hmm, (u, hmm) ∈ hmms ∧ Accepts hmm v) us ws ∧ w = ws.flatten := by
  obtain ⟨hmms, n, h1, h2, h3, -⟩ := C84_units_partial conf lines hc hn ht hg hu
  have hnd : (hmms.map Prod.fst).Nodup := h2.nodup_iff.2 hn
  obtain ⟨loop, g, entry, exit, k1, k2, ⟨c, k3⟩, k4⟩ := C83_decoding_language lines group hmms hn hsp h2 (by
    intro p hp
    obtain ⟨l, hl, hlp⟩ := List.mem_map.1 (h2.mem_iff.1 (List.mem_map.2 ⟨p, hp, rfl⟩))
    obtain ⟨k, hk, hkl⟩ := List.mem_map.1 (hg l hl)
    obtain ⟨m, hv⟩ := ht k hk
    obtain ⟨f, hf⟩ := h3 l hl k.2 m (by rw [← hkl]; exact hk) hv
    have : (l.1, unitHmm k.2 m f) = p := List.inj_on_of_nodup_map hnd hf hp hlp
    rw [← this]
    exact unitHmm_good k.2 m f hv)
  exact ⟨hmms, n, loop, g, entry, exit, c, h1, k1, k2, k3,
    (C08_state_emits_own_pdf conf lines lines group hmms n loop g entry exit c hn h1 k1 k2 k3).1, k4⟩

-- the hypotheses are met, with and without a start/end group
example (group : Option String) : ∃ hmms n loop g entry exit,
    mkphones [("nsp", topoSil), ("sp", topoUnit)] demoLines = .ok (hmms, n)
      ∧ mkphoneloopgraph demoLines group = .ok loop
      ∧ mkdecodegraph loop hmms = .ok (g, entry, exit) := by
  obtain ⟨hmms, n, loop, g, entry, exit, c, h1, h2, h3, -⟩ :=
    C83_from_configuration [("nsp", topoSil), ("sp", topoUnit)] demoLines group
      (by decide +kernel) (by decide +kernel) (by decide +kernel) demo_conf_valid (by decide +kernel)
      (by decide +kernel)
  exact ⟨hmms, n, loop, g, entry, exit, h1, h2, h3⟩

-- the allowed sequences: with the group `nsp`, `sil a b sil` is one and `a` is not
example : LoopSeq demoLines (some "nsp") ["sil", "a", "b", "sil"] ∧ ¬ LoopSeq demoLines (some "nsp") ["a"]
    ∧ ¬ LoopSeq demoLines (some "nsp") [] ∧ LoopSeq demoLines none [] := by
  refine ⟨⟨by decide, ?_⟩, ?_, ?_, ⟨by decide, by simp⟩⟩
  · rintro G hG
    cases hG
    exact ⟨⟨"sil", rfl, by decide⟩, ⟨"sil", rfl, by decide⟩⟩
  · rintro ⟨_, h⟩
    obtain ⟨⟨a, h1, h2⟩, _⟩ := h _ rfl
    cases h1
    revert h2; decide
  · rintro ⟨_, h⟩
    obtain ⟨⟨a, h1, h2⟩, _⟩ := h _ rfl
    cases h1

end Verif.Props
