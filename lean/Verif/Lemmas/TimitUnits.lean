import Verif.Lemmas.Units
import Verif.Props.GraphEdit
import Verif.Spec.TimitUnits

/-!
# Helper lemmas: the units of the old TIMIT recipe
-/

namespace Verif.TimitUnits

open Verif Verif.Spec Verif.Graph Verif.Props Verif.Pipeline

variable {F : Type}

theorem unitStates_range (topo : List (Arc F)) (n first : ℕ) (hn : 2 ≤ n) :
    (unitStates 0 (n - 1) (List.range n) first (Graph.empty : Graph F)).states = (unitHmm topo n first).states := by
  have hrange : List.range n = [0] ++ (List.range' 1 (n - 2) ++ [n - 1]) := by
    obtain ⟨m, rfl⟩ : ∃ m, n = m + 2 := ⟨n - 2, by omega⟩
    rw [List.range_eq_range', List.range'_succ, List.range'_concat]
    simp
    omega
  have h1 : unitStates 0 (n - 1) [0] first (Graph.empty : Graph F) = ((Graph.empty : Graph F).addState none).1 := by
    simp [unitStates]
  have e0 : ([0].filter (fun i => ¬ (i = 0 ∨ i = n - 1))).length = 0 := by simp
  have hlast : ∀ (p : ℤ) (g : Graph F), unitStates 0 (n - 1) [n - 1] p g = (g.addState none).1 := by
    intro p g; simp [unitStates]
  rw [hrange, unitStates_append, h1, e0, unitStates_append, hlast]
  have e1 : (first : ℤ) + ((0 : ℕ) : ℤ) = ((first : ℕ) : ℤ) := by simp
  rw [e1]
  have hin := unitStates_inner 0 (n - 1) (List.range' 1 (n - 2)) (by
    intro i hi
    have := List.mem_range'_1.1 hi
    omega) first ((Graph.empty : Graph F).addState none).1
  have hc := (unitStates_frame 0 (n - 1) (List.range' 1 (n - 2)) first ((Graph.empty : Graph F).addState none).1).2.1
  generalize unitStates 0 (n - 1) (List.range' 1 (n - 2)) first ((Graph.empty : Graph F).addState none).1 = g at *
  simp only [addState]
  rw [hin, hc]
  unfold unitHmm
  dsimp only
  rw [hrange]
  simp only [List.map_append, List.map_cons, List.map_nil, List.length_range', addState, Graph.empty]
  simp only [true_or, or_true, if_true, List.nil_append, List.append_assoc]
  congr 2
  · rw [List.range'_eq_map_range, List.map_map]
    apply List.map_congr_left
    intro k hk
    have := List.mem_range.1 hk
    simp only [Function.comp, Nat.zero_add]
    rw [if_neg (by omega), show 1 + k - 1 = k by omega]
  · rw [show 0 + 1 + (n - 2) = n - 1 by omega]

theorem unitHmm_ids (topo : List (Arc F)) (n first : ℕ) : (unitHmm topo n first).ids = List.range n := by
  unfold ids unitHmm
  dsimp only
  rw [List.map_map]
  exact List.map_id _

theorem unitHmm_pdfs (topo : List (Arc F)) (n first : ℕ) :
    (unitHmm topo n first).states.filterMap Prod.snd = List.range' first (n - 2) := by
  unfold unitHmm
  dsimp only
  rw [List.filterMap_map]
  by_cases hn : 2 ≤ n
  · have hrange : List.range n = [0] ++ (List.range' 1 (n - 2) ++ [n - 1]) := by
      obtain ⟨m, rfl⟩ : ∃ m, n = m + 2 := ⟨n - 2, by omega⟩
      rw [List.range_eq_range', List.range'_succ, List.range'_concat]
      simp
      omega
    rw [hrange, List.filterMap_append, List.filterMap_append]
    have ha : List.filterMap (Prod.snd ∘ fun i : ℕ => (i, if i = 0 ∨ i = n - 1 then none else some (first + (i - 1)))) [0] = [] := by
      simp
    have hb : List.filterMap (Prod.snd ∘ fun i : ℕ => (i, if i = 0 ∨ i = n - 1 then none else some (first + (i - 1)))) [n - 1]
        = [] := by
      simp
    rw [ha, hb, List.nil_append, List.append_nil]
    have hc : ∀ i ∈ List.range' 1 (n - 2),
        (Prod.snd ∘ fun i : ℕ => (i, if i = 0 ∨ i = n - 1 then none else some (first + (i - 1)))) i
          = some (first + (i - 1)) := by
      intro i hi
      have := List.mem_range'_1.1 hi
      simp only [Function.comp]
      rw [if_neg (by omega)]
    rw [List.filterMap_congr hc, show (fun i : ℕ => some (first + (i - 1))) = some ∘ (fun i => first + (i - 1)) from rfl,
      List.filterMap_eq_map, List.range'_eq_map_range, List.range'_eq_map_range, List.map_map]
    apply List.map_congr_left
    intro k _
    simp only [Function.comp]
    omega
  · have : n = 0 ∨ n = 1 := by omega
    rcases this with rfl | rfl <;> simp

section field

variable [Field F]

theorem phoneUnits_append (ss ss' : List (ℕ × List (Arc F))) (ps : List String) (first : ℕ) (h : ss.length ≤ ps.length) :
    phoneUnits (ss ++ ss') ps first = phoneUnits ss ps first
      ++ phoneUnits ss' (ps.drop ss.length) (first + (ss.map fun s => s.1 - 2).sum) := by
  induction ss generalizing ps first with
  | nil => simp [phoneUnits]
  | cons s ss ih =>
    cases ps with
    | nil => simp at h
    | cons p ps =>
      simp only [List.cons_append, phoneUnits, List.length_cons, List.drop_succ_cons, List.map_cons, List.sum_cons]
      rw [ih _ _ (by simpa using h), Nat.add_assoc]

theorem phoneUnits_names (ss : List (ℕ × List (Arc F))) (ps : List String) (first : ℕ) (h : ss.length ≤ ps.length) :
    (phoneUnits ss ps first).map Prod.fst = ps.take ss.length := by
  induction ss generalizing ps first with
  | nil => simp [phoneUnits]
  | cons s ss ih =>
    cases ps with
    | nil => simp at h
    | cons p ps => simp only [phoneUnits, List.map_cons, List.length_cons, List.take_succ_cons, ih _ _ (by simpa using h)]

theorem phoneUnits_pdfs (ss : List (ℕ × List (Arc F))) (ps : List String) (first : ℕ) (h : ss.length ≤ ps.length) :
    (phoneUnits ss ps first).flatMap (fun u => u.2.states.filterMap Prod.snd)
      = List.range' first (ss.map fun s => s.1 - 2).sum := by
  induction ss generalizing ps first with
  | nil => simp [phoneUnits]
  | cons s ss ih =>
    cases ps with
    | nil => simp at h
    | cons p ps =>
      simp only [phoneUnits, List.flatMap_cons, List.map_cons, List.sum_cons, unitHmm_pdfs]
      rw [ih _ _ (by simpa using h), ← List.range'_append_1]

theorem phoneUnits_mem (ss : List (ℕ × List (Arc F))) (ps : List String) (first : ℕ) (u : String × Graph F)
    (hu : u ∈ phoneUnits ss ps first) : ∃ s ∈ ss, ∃ f, u.2 = unitHmm (normTopo s.1 s.2) s.1 f := by
  induction ss generalizing ps first with
  | nil => simp [phoneUnits] at hu
  | cons s ss ih =>
    cases ps with
    | nil => simp [phoneUnits] at hu
    | cons p ps =>
      simp only [phoneUnits, List.mem_cons] at hu
      rcases hu with rfl | hu
      · exact ⟨s, List.mem_cons_self, first, rfl⟩
      · obtain ⟨t, ht, f, hf⟩ := ih _ _ hu
        exact ⟨t, List.mem_cons_of_mem _ ht, f, hf⟩

end field

section ordered

variable [Field F] [LinearOrder F] [IsStrictOrderedRing F]

theorem outSum_pos (g : Graph F) (hw : ∀ a ∈ g.arcs, 0 < a.weight) (s : ℕ) (h : ∃ a ∈ g.arcs, a.start = s) :
    0 < outSum g s := by
  obtain ⟨a, ha, hs⟩ := h
  unfold outSum
  refine List.sum_pos _ ?_ ?_
  · intro x hx
    obtain ⟨b, hb, rfl⟩ := List.mem_map.1 hx
    exact hw b (List.mem_filter.1 hb).1
  · intro hnil
    have : a.weight ∈ (g.arcs.filter (fun a => a.start = s)).map (·.weight) :=
      List.mem_map.2 ⟨a, List.mem_filter.2 ⟨ha, by simpa using hs⟩, rfl⟩
    rw [hnil] at this
    simp at this

theorem unitHmm_normalize (topo : List (Arc F)) (n first : ℕ) (h : GoodArcs topo) :
    (unitHmm topo n first).normalize = (unitHmm (normTopo n topo) n first, none) := by
  have hid := unitHmm_ids topo n first
  obtain ⟨h1, h2, h3, h4, h5, h6⟩ := C02_normalize_divides (unitHmm topo n first) (by rw [hid]; exact List.nodup_range)
    (fun s _ hs => (outSum_pos (unitHmm topo n first) h.2 s hs).ne')
  have key : (unitHmm topo n first).normalize.1.arcs = normTopo n topo := by
    rw [h2]
    unfold normTopo
    apply List.map_congr_left
    intro a _
    have e : (a.start ∈ (unitHmm topo n first).ids) ↔ a.start < n := by rw [hid, List.mem_range]
    by_cases hs : a.start < n
    · rw [if_pos hs, if_pos (e.2 hs)]
      rfl
    · rw [if_neg hs, if_neg (fun hh => hs (e.1 hh))]
  refine Prod.ext ?_ h1
  generalize (unitHmm topo n first).normalize.1 = r at *
  obtain ⟨c, st, ar, ss, es⟩ := r
  dsimp only at key h3 h4 h5 h6
  rw [key, h3, h4, h5, h6]
  rfl

theorem timitUnit_ok (topo : List (Arc F)) (n first : ℕ) (hn : 2 ≤ n) (h : GoodArcs topo) :
    timitUnit n topo first = .ok (unitHmm (normTopo n topo) n first, ((first + (n - 2) : ℕ) : ℤ)) := by
  obtain ⟨f1, f2, f3⟩ := unitStates_frame 0 (n - 1) (List.range n) first (Graph.empty : Graph F)
  unfold timitUnit
  rw [if_neg (by omega)]
  dsimp only
  have hg : (({ unitStates 0 (n - 1) (List.range n) first (Graph.empty : Graph F) with
      startState := some 0, endState := some (n - 1) } : Graph F).addArcs topo) = unitHmm topo n first := by
    rw [addArcs_append topo _ (List.pairwise_map.2 h.1) (by
      intro a _
      unfold keys
      dsimp only
      rw [f1]
      simp [Graph.empty])]
    dsimp only
    rw [unitStates_range topo n first hn, f1, f2]
    simp [unitHmm, Graph.empty]
  rw [hg, unitHmm_normalize topo n first h]
  dsimp only
  congr 2
  push_cast [Nat.cast_sub hn]
  ring

/-- One unit at a time. -/
theorem timitMakeUnits_ok (phones : List String) (hp : phones.Nodup) (g : TGroup F) (hn : 2 ≤ g.nStates) (h : GoodArcs g.topo)
    (k c first : ℕ) (us : List (String × Graph F)) (hu : us.map Prod.fst = phones.take c) :
    timitMakeUnits phones g k (c, (first : ℤ), us) =
      if c + k ≤ phones.length ∨ k = 0 then
        .ok (c + k, ((first + k * (g.nStates - 2) : ℕ) : ℤ),
          us ++ phoneUnits (List.replicate k (g.nStates, g.topo)) (phones.drop c) first)
      else .error .indexError := by
  induction k generalizing c first us with
  | zero => simp [timitMakeUnits, phoneUnits]
  | succ k ih =>
    unfold timitMakeUnits
    dsimp only
    rw [timitUnit_ok g.topo g.nStates first hn h]
    dsimp only
    by_cases hc : c < phones.length
    · rw [List.getElem?_eq_getElem hc]
      dsimp only
      have hnew : phones[c] ∉ us.map Prod.fst := by
        rw [hu]
        intro hm
        obtain ⟨i, hi, he⟩ := List.mem_iff_getElem.1 hm
        rw [List.getElem_take] at he
        have := (List.Nodup.getElem_inj_iff hp).1 he
        rw [List.length_take] at hi
        omega
      rw [dictSet_new _ _ _ hnew, ih (c + 1) _ _ (by
        rw [List.map_append, hu, List.take_add_one, List.getElem?_eq_getElem hc]
        rfl)]
      have hd : phones.drop c = phones[c] :: phones.drop (c + 1) := List.drop_eq_getElem_cons hc
      by_cases hk : c + (k + 1) ≤ phones.length
      · rw [if_pos (by left; omega), if_pos (by left; omega)]
        congr 2
        · omega
        · rw [hd, List.replicate_succ]
          refine Prod.ext ?_ ?_
          · dsimp only
            congr 1
            ring
          · dsimp only [phoneUnits]
            rw [List.append_assoc]
            rfl
      · rw [if_neg (by omega), if_neg (by omega)]
    · rw [List.getElem?_eq_none (by omega), if_neg (by omega)]

omit [IsStrictOrderedRing F] in
theorem timitEmissions_ok (g : TGroup F) (h : GoodGroup g) :
    timitEmissions g = .ok (some (g.nUnits * (g.nStates - 2))) := by
  have hs := h.states
  have e : (g.nUnits : ℤ) * ((g.nStates : ℤ) - 2) = ((g.nUnits * (g.nStates - 2) : ℕ) : ℤ) := by
    push_cast [Nat.cast_sub (show 2 ≤ g.nStates by omega)]
    ring
  have hpos : 0 < g.nUnits * (g.nStates - 2) := Nat.mul_pos h.units (by omega)
  unfold timitEmissions
  rw [h.gmm]
  dsimp only
  rw [e, if_pos rfl, if_neg (by omega), if_neg (by omega), Int.toNat_natCast]

theorem timitGroups_ok (phones : List String) (hp : phones.Nodup) (conf : List (TGroup F)) (hg : ∀ g ∈ conf, GoodGroup g)
    (c first m : ℕ) (us : List (String × Graph F)) (hu : us.map Prod.fst = phones.take c) (hc : c ≤ phones.length) :
    timitGroups phones conf (c, (first : ℤ), us) m =
      if c + (shapes conf).length ≤ phones.length then
        .ok (some (us ++ phoneUnits (shapes conf) (phones.drop c) first, m + ((shapes conf).map fun s => s.1 - 2).sum))
      else .error .indexError := by
  induction conf generalizing c first m us with
  | nil => simp [timitGroups, shapes, phoneUnits, hc]
  | cons g conf ih =>
    have hgood := hg g List.mem_cons_self
    have hsh : shapes (g :: conf) = List.replicate g.nUnits (g.nStates, g.topo) ++ shapes conf := rfl
    have hlen : (shapes (g :: conf)).length = g.nUnits + (shapes conf).length := by
      rw [hsh, List.length_append, List.length_replicate]
    unfold timitGroups
    rw [timitMakeUnits_ok phones hp g (by have := hgood.states; omega) hgood.arcs g.nUnits c first us hu]
    by_cases h : c + g.nUnits ≤ phones.length
    · rw [if_pos (Or.inl h)]
      dsimp only
      rw [timitEmissions_ok g hgood]
      dsimp only
      have hrl : (List.replicate g.nUnits (g.nStates, g.topo)).length ≤ (phones.drop c).length := by
        rw [List.length_replicate, List.length_drop]
        omega
      rw [ih (fun g hg' => hg g (List.mem_cons_of_mem _ hg')) (c + g.nUnits) _ _ _ (by
        rw [List.map_append, hu, phoneUnits_names _ _ _ hrl, List.length_replicate, List.take_add]) (by omega), hlen,
        ← Nat.add_assoc]
      by_cases h2 : c + g.nUnits + (shapes conf).length ≤ phones.length
      · rw [if_pos h2, if_pos h2, hsh, phoneUnits_append _ _ _ _ hrl]
        simp [List.drop_drop, Nat.add_assoc]
      · rw [if_neg h2, if_neg h2]
    · rw [if_neg (by have := hgood.units; omega)]
      dsimp only
      rw [hlen, if_neg (by omega)]

end ordered

end Verif.TimitUnits
