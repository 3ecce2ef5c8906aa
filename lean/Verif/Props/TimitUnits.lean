import Verif.Lemmas.TimitUnits
import Verif.Props.DecodeText

/-!
# C175: the units of the old TIMIT recipe
-/

namespace Verif.Props

open Verif Verif.Spec Verif.Graph Verif.Pipeline Verif.TimitUnits

variable {F : Type}

/-- What the script writes for the groups `conf` and the phones `phones`: the units `us` and `m` densities. The units are those of the
first phones in the order of the file, the densities of their states are `0, 1, …, m - 1` in order and each is used once, and the
probabilities of the arcs leaving any state sum to one. -/
def GoodUnits [Field F] (conf : List (TGroup F)) (phones : List String) (us : List (String × Graph F)) (m : ℕ) : Prop :=
  us = phoneUnits (shapes conf) phones 0 ∧ us.map Prod.fst = phones.take (conf.map fun g => g.nUnits).sum ∧
  us.flatMap (fun u => u.2.states.filterMap Prod.snd) = List.range m ∧
  m = (conf.map fun g => g.nUnits * (g.nStates - 2)).sum ∧
  ∀ u ∈ us, ∀ s ∈ u.2.ids, (∃ a ∈ u.2.arcs, a.start = s) → outSum u.2 s = 1

theorem shapes_length (conf : List (TGroup F)) : (shapes conf).length = (conf.map fun g => g.nUnits).sum := by
  unfold shapes
  rw [List.length_flatMap]
  simp

theorem shapes_pdfs (conf : List (TGroup F)) :
    ((shapes conf).map fun s => s.1 - 2).sum = (conf.map fun g => g.nUnits * (g.nStates - 2)).sum := by
  induction conf with
  | nil => rfl
  | cons g conf ih =>
    have : shapes (g :: conf) = List.replicate g.nUnits (g.nStates, g.topo) ++ shapes conf := rfl
    rw [this, List.map_append, List.sum_append, ih]
    simp

theorem timitPhones_ok (ls : List (List String)) (h : [] ∉ ls) : timitPhones ls = .ok (ls.map fun l => l.headD "") := by
  induction ls with
  | nil => rfl
  | cons l ls ih =>
    cases l with
    | nil => simp at h
    | cons p l =>
      simp only [timitPhones]
      rw [ih (fun hh => h (List.mem_cons_of_mem _ hh))]
      rfl

section ordered

variable [Field F] [LinearOrder F] [IsStrictOrderedRing F]

/-- With distinct phones, at least as many as units, the script writes the units of the first phones. -/
theorem C175_units_partial (conf : List (TGroup F)) (hg : ∀ g ∈ conf, GoodGroup g) (ls : List (List String)) (hl : [] ∉ ls)
    (hp : (ls.map fun l => l.headD "").Nodup) (hn : (conf.map fun g => g.nUnits).sum ≤ ls.length) :
    ∃ us m, timitMain conf ls = .ok (some (us, m)) ∧ GoodUnits conf (ls.map fun l => l.headD "") us m := by
  have hlen : (shapes conf).length ≤ (ls.map fun l => l.headD "").length := by
    rw [shapes_length, List.length_map]
    exact hn
  refine ⟨phoneUnits (shapes conf) (ls.map fun l => l.headD "") 0, (conf.map fun g => g.nUnits * (g.nStates - 2)).sum, ?_,
    rfl, ?_, ?_, rfl, ?_⟩
  · unfold timitMain
    rw [timitPhones_ok ls hl]
    dsimp only
    have := timitGroups_ok (ls.map fun l => l.headD "") hp conf hg 0 0 0 [] (by simp) (by omega)
    rw [if_pos (by omega), shapes_pdfs] at this
    simpa using this
  · rw [phoneUnits_names _ _ _ hlen, shapes_length]
  · rw [phoneUnits_pdfs _ _ _ hlen, shapes_pdfs, List.range_eq_range']
  · intro u hu s hs ha
    obtain ⟨sh, hsh, f, hf⟩ := phoneUnits_mem _ _ _ u hu
    obtain ⟨g, hgm, hg'⟩ := List.mem_flatMap.1 hsh
    have hgood : GoodArcs sh.2 := by
      rw [List.eq_of_mem_replicate hg']
      exact (hg g hgm).arcs
    have hnorm := unitHmm_normalize sh.2 sh.1 f hgood
    have hids := unitHmm_ids sh.2 sh.1 f
    have h1 : (unitHmm sh.2 sh.1 f).normalize.1 = u.2 := by rw [hnorm, hf]
    have h2 : (unitHmm sh.2 sh.1 f).normalize.2 = none := by rw [hnorm]
    rw [← h1]
    refine C02_sums_to_one _ (by rw [hids]; exact List.nodup_range) h2 s ?_ ?_
    · rw [hf, unitHmm_ids] at hs
      rw [hids]
      exact hs
    · obtain ⟨a, ha, has⟩ := ha
      rw [hf] at ha
      obtain ⟨b, hb, rfl⟩ := List.mem_map.1 (show a ∈ normTopo sh.1 sh.2 from ha)
      refine ⟨b, hb, ?_⟩
      rw [← has]
      split <;> rfl

/-- With fewer phones than units the script fails. -/
theorem C175_too_few_phones (conf : List (TGroup F)) (hg : ∀ g ∈ conf, GoodGroup g) (ls : List (List String)) (hl : [] ∉ ls)
    (hp : (ls.map fun l => l.headD "").Nodup) (hn : ls.length < (conf.map fun g => g.nUnits).sum) :
    timitMain conf ls = .error .indexError := by
  unfold timitMain
  rw [timitPhones_ok ls hl]
  dsimp only
  have := timitGroups_ok (ls.map fun l => l.headD "") hp conf hg 0 0 0 [] (by simp) (by omega)
  rw [if_neg (by rw [shapes_length, List.length_map]; omega)] at this
  simpa using this

/-- A unit of this script is the unit of `mkphones.py` with normalised weights, for a sensible topology. -/
theorem C175_same_as_mkphones (topo : List (Arc F)) (n first : ℕ) (h : ValidTopo topo n) :
    ∃ g p, createUnitGraph topo first = .ok (g, p) ∧ timitUnit n topo first = .ok (g.normalize.1, p) := by
  have hgood : GoodArcs topo := ⟨h.distinct, h.positive⟩
  refine ⟨_, _, createUnitGraph_valid topo n first h, ?_⟩
  rw [timitUnit_ok topo n first (by have := h.size; omega) hgood, unitHmm_normalize topo n first hgood]

/-- The failures for a group whose units can be made: no `emission_type`, the type `LDS`, an unknown type (`exit(1)`), units without
emitting state. -/
theorem C175_emissions (g : TGroup F) (gs : List (TGroup F)) (ls : List (List String)) (hl : [] ∉ ls)
    (hp : (ls.map fun l => l.headD "").Nodup) (hn : g.nUnits ≤ ls.length) (hs : 2 ≤ g.nStates) (ha : GoodArcs g.topo) :
    (g.emission = none → timitMain (g :: gs) ls = .error .keyError) ∧
    (g.emission = some "LDS" → timitMain (g :: gs) ls = .error .attributeError) ∧
    (∀ e, g.emission = some e → e ≠ "GMM" → e ≠ "LDS" → timitMain (g :: gs) ls = .ok none) ∧
    (g.emission = some "GMM" → g.nUnits = 0 ∨ g.nStates = 2 → timitMain (g :: gs) ls = .error .zeroDivision) := by
  have h := timitMakeUnits_ok (ls.map fun l => l.headD "") hp g hs ha g.nUnits 0 0 [] (by simp)
  rw [if_pos (by left; simpa using hn)] at h
  have key : ∀ r, timitEmissions g = r → timitMain (g :: gs) ls = match r with
      | .error e => .error e
      | .ok none => .ok none
      | .ok (some m) => timitGroups (ls.map fun l => l.headD "") gs (0 + g.nUnits, ((0 + g.nUnits * (g.nStates - 2) : ℕ) : ℤ),
          [] ++ phoneUnits (List.replicate g.nUnits (g.nStates, g.topo)) ((ls.map fun l => l.headD "").drop 0) 0) (0 + m) := by
    intro r hr
    unfold timitMain
    rw [timitPhones_ok ls hl]
    dsimp only
    rw [timitGroups, show ((0 : ℤ)) = ((0 : ℕ) : ℤ) from rfl, h, hr]
    rfl
  refine ⟨fun he => ?_, fun he => ?_, fun e he h1 h2 => ?_, fun he h2 => ?_⟩
  · exact key (.error .keyError) (by unfold timitEmissions; rw [he])
  · exact key (.error .attributeError) (by
      unfold timitEmissions
      rw [he]
      dsimp only
      rw [if_neg (by decide), if_pos rfl])
  · exact key (.ok none) (by
      unfold timitEmissions
      rw [he]
      dsimp only
      rw [if_neg h1, if_neg h2])
  · refine key (.error .zeroDivision) ?_
    have e0 : (g.nUnits : ℤ) * ((g.nStates : ℤ) - 2) = 0 := by
      rcases h2 with h2 | h2
      · rw [h2]; simp
      · rw [h2]; norm_num
    unfold timitEmissions
    rw [he]
    dsimp only
    rw [if_pos rfl, e0, if_neg (by omega), if_pos rfl]

end ordered

/-- The failures while making the units: a blank line in the list of phones; units without states; one unit whose arcs leaving some
state have weights summing to zero. -/
theorem C175_unit_failures [Field F] [DecidableEq F] (g : TGroup F) (gs : List (TGroup F)) (ls ls' : List (List String)) :
    (timitMain (g :: gs) (ls ++ [] :: ls') = .error .indexError) ∧
    ([] ∉ ls → 0 < g.nUnits → g.nStates = 0 → timitMain (g :: gs) ls = .error .indexError) ∧
    ([] ∉ ls → 0 < g.nUnits → 2 ≤ g.nStates → g.topo.Pairwise (fun a b => (a.start, a.stop) ≠ (b.start, b.stop)) →
      (∃ s < g.nStates, (∃ a ∈ g.topo, a.start = s) ∧ ((g.topo.filter fun a => a.start = s).map (·.weight)).sum = 0) →
      timitMain (g :: gs) ls = .error .zeroDivision) := by
  refine ⟨?_, fun hl hu h0 => ?_, fun hl hu hn hd hz => ?_⟩
  · have : timitPhones (ls ++ [] :: ls') = .error .indexError := by
      induction ls with
      | nil => rfl
      | cons l ls ih =>
        cases l with
        | nil => rfl
        | cons p l => simp only [List.cons_append, timitPhones, ih]
    unfold timitMain
    rw [this]
  · obtain ⟨k, hk⟩ : ∃ k, g.nUnits = k + 1 := ⟨g.nUnits - 1, by omega⟩
    unfold timitMain
    rw [timitPhones_ok ls hl]
    simp only [timitGroups, hk, timitMakeUnits, timitUnit, h0, if_true]
  · obtain ⟨k, hk⟩ : ∃ k, g.nUnits = k + 1 := ⟨g.nUnits - 1, by omega⟩
    obtain ⟨s, hs, hsa, h0⟩ := hz
    have hu : timitUnit g.nStates g.topo 0 = .error .zeroDivision := by
      obtain ⟨f1, f2, f3⟩ := unitStates_frame 0 (g.nStates - 1) (List.range g.nStates) ((0 : ℕ) : ℤ) (Graph.empty : Graph F)
      unfold timitUnit
      rw [if_neg (by omega)]
      dsimp only
      have hg : (({ unitStates 0 (g.nStates - 1) (List.range g.nStates) (0 : ℤ) (Graph.empty : Graph F) with
          startState := some 0, endState := some (g.nStates - 1) } : Graph F).addArcs g.topo) = unitHmm g.topo g.nStates 0 := by
        rw [show (0 : ℤ) = ((0 : ℕ) : ℤ) from rfl, addArcs_append g.topo _ (List.pairwise_map.2 hd) (by
          intro a _
          unfold keys
          dsimp only
          rw [f1]
          simp [Graph.empty])]
        dsimp only
        rw [unitStates_range g.topo g.nStates 0 hn, f1, f2]
        simp [unitHmm, Graph.empty]
      rw [hg]
      have hz := C02_zero_sum_fails (unitHmm g.topo g.nStates 0) (by rw [unitHmm_ids]; exact List.nodup_range) s
        (by rw [unitHmm_ids]; exact List.mem_range.2 hs) hsa h0
      generalize (unitHmm g.topo g.nStates 0).normalize = r at hz ⊢
      obtain ⟨r1, r2⟩ := r
      dsimp only at hz
      subst hz
      rfl
    unfold timitMain
    rw [timitPhones_ok ls hl]
    simp only [timitGroups, hk, timitMakeUnits, hu]

/-! Witnesses. -/

/-- A left-to-right topology with one emitting state. -/
def timitDemoTopo : List (Arc ℚ) := [⟨0, 1, 1⟩, ⟨1, 1, 3⟩, ⟨1, 2, 1⟩]

def timitDemoGroup (k : ℕ) : TGroup ℚ := ⟨k, 3, timitDemoTopo, some "GMM", false⟩

def timitDemoUnit (first : ℕ) : Graph ℚ :=
  ⟨3, [(0, none), (1, some first), (2, none)], [⟨0, 1, 1⟩, ⟨1, 1, 3 / 4⟩, ⟨1, 2, 1 / 4⟩], some 0, some 2⟩

/-- The violation: two phones of the same name, and the first density belongs to no unit. -/
theorem C175_same_phone_fails :
    timitMain [timitDemoGroup 2] [["aa"], ["aa"]] = .ok (some ([("aa", timitDemoUnit 1)], 2)) := by
  decide +kernel

/-- The violation: a phone beyond the number of units gets no unit, without an error. -/
theorem C175_extra_phone_fails :
    timitMain [timitDemoGroup 1] [["aa"], ["bb"]] = .ok (some ([("aa", timitDemoUnit 0)], 1)) := by
  decide +kernel

/-- The violation: with a number of states smaller than those of the topology the unit has arcs to states that do not exist; here the
topology has four states, its second emitting state becomes the end of the unit and an arc leads on to the missing last state. -/
theorem C175_states_of_topology_fails :
    timitMain [(⟨1, 3, [⟨0, 1, 1⟩, ⟨1, 2, 1⟩, ⟨2, 3, 1⟩], some "GMM", false⟩ : TGroup ℚ)] [["aa"]] =
      .ok (some ([("aa", ⟨3, [(0, none), (1, some 0), (2, none)], [⟨0, 1, 1⟩, ⟨1, 2, 1⟩, ⟨2, 3, 1⟩], some 0, some 2⟩)], 1)) := by
  decide +kernel

/-- A single state per unit: the number of densities is negative. -/
theorem C175_one_state :
    timitMain [(⟨1, 1, [], some "GMM", false⟩ : TGroup ℚ)] [["aa"]] = .error .runtimeError ∧
    timitMain [(⟨1, 1, [], some "GMM", true⟩ : TGroup ℚ)] [["aa"]] = .error .valueError := by
  refine ⟨by decide +kernel, by decide +kernel⟩

example : timitMain [timitDemoGroup 1, timitDemoGroup 1] [["sil", "0"], ["aa"], ["bb"]] =
    .ok (some ([("sil", timitDemoUnit 0), ("aa", timitDemoUnit 1)], 2)) := by decide +kernel

example : GoodGroup (timitDemoGroup 2) := by
  refine ⟨by decide, by decide, ⟨by decide, ?_⟩, rfl⟩
  intro a ha
  simp only [timitDemoGroup, timitDemoTopo, List.mem_cons, List.not_mem_nil, or_false] at ha
  rcases ha with rfl | rfl | rfl <;> norm_num

example : timitMain [timitDemoGroup 3] [["aa"], ["bb"]] = .error .indexError := by decide +kernel

/-- The shipped configuration: no `emission_type`. -/
example : timitMain [{ timitDemoGroup 1 with emission := none }] [["aa"]] = .error .keyError := by decide +kernel

example : timitMain [{ timitDemoGroup 1 with emission := some "LDS" }] [["aa"]] = .error .attributeError ∧
    timitMain [{ timitDemoGroup 1 with emission := some "DNN" }] [["aa"]] = .ok none ∧
    timitMain [(⟨1, 2, [⟨0, 1, 1⟩], some "GMM", false⟩ : TGroup ℚ)] [["aa"]] = .error .zeroDivision ∧
    timitMain [(⟨1, 0, [], some "GMM", false⟩ : TGroup ℚ)] [["aa"]] = .error .indexError ∧
    timitMain [(⟨1, 3, [⟨0, 1, 1⟩, ⟨0, 2, -1⟩], some "GMM", false⟩ : TGroup ℚ)] [["aa"]] = .error .zeroDivision := by
  refine ⟨by decide +kernel, by decide +kernel, by decide +kernel, by decide +kernel, by decide +kernel⟩

end Verif.Props
