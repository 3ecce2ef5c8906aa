import Verif.Lemmas.Graph
import Mathlib.Tactic.NormNum
import Mathlib.Algebra.BigOperators.Ring.List

/-!
# Properties C01, C02: editing and normalising graphs
-/

namespace Verif.Props

open Verif Verif.Graph

variable {F : Type}

/-! ## C01 -/

/-- A call on a graph object. -/
inductive GraphOp (F : Type) where
  | addState (pdf : Option ℕ)
  | addArc (s e : ℕ) (w : F)
  | replaceState (s : ℕ) (sub : Graph F)
  | normalize
  | setStart (s : Option ℕ)
  | setEnd (s : Option ℕ)

/-- The graph after a call; if the call raises, the exception is caught by the caller and the
(possibly half modified) graph is kept. -/
def GraphOp.exec [Field F] [DecidableEq F] (g : Graph F) : GraphOp F → Graph F
  | .addState pdf => (g.addState pdf).1
  | .addArc s e w => g.addArc s e w
  | .replaceState s sub => (g.replaceState s sub).1
  | .normalize => g.normalize.1
  | .setStart s => { g with startState := s }
  | .setEnd s => { g with endState := s }

/-- Graph after a history of calls on `Graph()`. -/
def runOps [Field F] [DecidableEq F] (ops : List (GraphOp F)) : Graph F :=
  ops.foldl GraphOp.exec Graph.empty

theorem exec_inv [Field F] [DecidableEq F] (g : Graph F) (op : GraphOp F) (h : g.Inv) :
    (op.exec g).Inv ∧ g.count ≤ (op.exec g).count := by
  cases op with
  | addState pdf => exact ⟨addState_inv g pdf h, Nat.le_succ _⟩
  | addArc s e w => exact ⟨addArc_inv g s e w h, (addArc_count g s e w).1.ge⟩
  | replaceState s sub => exact replaceState_inv g s sub h
  | normalize => exact ⟨normalize_inv g h, (normalizeLoop_frame g.ids g).1.ge⟩
  | setStart s => exact ⟨⟨h.1, h.2, h.3⟩, Nat.le_refl _⟩
  | setEnd s => exact ⟨⟨h.1, h.2, h.3⟩, Nat.le_refl _⟩

theorem foldl_inv [Field F] [DecidableEq F] (ops : List (GraphOp F)) (g : Graph F) (h : g.Inv) :
    (ops.foldl GraphOp.exec g).Inv ∧ g.count ≤ (ops.foldl GraphOp.exec g).count := by
  induction ops generalizing g with
  | nil => exact ⟨h, Nat.le_refl _⟩
  | cons op ops ih =>
    have h1 := exec_inv g op h
    have h2 := ih _ h1.1
    exact ⟨h2.1, h1.2.trans h2.2⟩

/-- **C01.** After any history of calls, failed ones included, the states have distinct identifiers,
all below the counter, and there is at most one arc per ordered pair of states. -/
theorem C01_ids_and_arcs_unique [Field F] [DecidableEq F] (ops : List (GraphOp F)) :
    (runOps ops).ids.Nodup ∧ (∀ i ∈ (runOps ops).ids, i < (runOps ops).count)
    ∧ (runOps ops).arcs.Pairwise (fun a b => (a.start, a.stop) ≠ (b.start, b.stop)) := by
  have h := (foldl_inv ops Graph.empty inv_empty).1
  exact ⟨h.1, h.2, List.pairwise_map.1 h.3⟩

/-- **C01.** An identifier handed out by `add_state` is never handed out again, whatever happens in
between, and it is not one of the states already there. -/
theorem C01_ids_never_reused [Field F] [DecidableEq F] (ops1 ops2 : List (GraphOp F))
    (pdf1 pdf2 : Option ℕ) :
    ((runOps ops1).addState pdf1).2
      < ((runOps (ops1 ++ .addState pdf1 :: ops2)).addState pdf2).2
    ∧ ((runOps ops1).addState pdf1).2 ∉ (runOps ops1).ids := by
  have h := foldl_inv ops1 (Graph.empty : Graph F) inv_empty
  constructor
  · have h2 := exec_inv (runOps ops1) (.addState pdf1) h.1
    have h3 := foldl_inv ops2 _ h2.1
    have : (runOps (ops1 ++ .addState pdf1 :: ops2))
        = ops2.foldl GraphOp.exec (GraphOp.exec (runOps ops1) (.addState pdf1)) := by
      simp [runOps, List.foldl_append]
    rw [this]
    exact Nat.lt_of_lt_of_le (Nat.lt_succ_self _) h3.2
  · intro hmem
    exact absurd (h.1.ids_lt _ hmem) (Nat.lt_irrefl _)

/-- **C01.** Adding an arc: if the pair is already connected the graph is unchanged, in particular the
first weight is kept; otherwise exactly this arc is added. -/
theorem C01_add_arc (g : Graph F) (s e : ℕ) (w : F) :
    ((∃ a ∈ g.arcs, a.start = s ∧ a.stop = e) → g.addArc s e w = g)
    ∧ ((¬ ∃ a ∈ g.arcs, a.start = s ∧ a.stop = e) →
        (g.addArc s e w).arcs.Perm (⟨s, e, w⟩ :: g.arcs) ∧ (g.addArc s e w).states = g.states) := by
  have hiff : (s, e) ∈ g.keys ↔ ∃ a ∈ g.arcs, a.start = s ∧ a.stop = e := by
    simp [keys, Arc.key]
  constructor
  · intro h; rw [addArc_eq, if_pos (hiff.2 h)]
  · intro h
    rw [addArc_eq, if_neg (fun h' => h (hiff.1 h'))]
    exact ⟨List.perm_append_comm (l₁ := g.arcs) (l₂ := [(⟨s, e, w⟩ : Arc F)]), rfl⟩

/-- A history with a failing call (replacing a state with a self-loop) and a replacement. -/
example : (runOps [.addState none, .addState (some 4), .addArc 0 1 (2 : ℚ), .addArc 0 1 3,
      .addArc 1 1 1, .replaceState 1 Graph.empty, .addState none, .normalize]).ids = [0, 1, 2]
    ∧ ((runOps [.addState none, .addState (some 4), .addArc 0 1 (2 : ℚ), .addArc 0 1 3]).arcs.map
        (·.weight)) = [2] := by decide +kernel

/-! ## C02 -/

/-- Sum of the weights leaving a state. -/
def outSum [AddMonoid F] (g : Graph F) (s : ℕ) : F := ((g.arcs.filter (fun a => a.start = s)).map (·.weight)).sum

/-- Graph whose weights are divided by the sum leaving their start, for the starts in `ss`. -/
def dividedBy [Field F] (g : Graph F) (ss : List ℕ) : Graph F :=
  let f : Arc F → Arc F := fun a => if a.start ∈ ss then { a with weight := a.weight / outSum g a.start } else a
  { g with arcs := g.arcs.map f }

theorem filter_map_start [Field F] (l : List (Arc F)) (f : Arc F → Arc F)
    (hf : ∀ a, (f a).start = a.start) (s : ℕ) :
    (l.map f).filter (fun a => a.start = s) = (l.filter (fun a => a.start = s)).map f := by
  rw [List.filter_map]
  congr 1
  apply List.filter_congr
  intro a _
  simp [hf]

theorem outSum_dividedBy_self [Field F] (g : Graph F) (ss : List ℕ) (s : ℕ) (hs : s ∈ ss) :
    outSum (dividedBy g ss) s = outSum g s / outSum g s := by
  unfold dividedBy
  simp only [outSum]
  rw [filter_map_start _ _ (by intro a; split <;> rfl), List.map_map]
  have : ((g.arcs.filter (fun a => a.start = s)).map
      ((fun a : Arc F => a.weight) ∘ fun a => if a.start ∈ ss then { a with weight := a.weight /
        (((g.arcs.filter (fun b => b.start = a.start)).map (·.weight)).sum) } else a))
      = (g.arcs.filter (fun a => a.start = s)).map (fun a => a.weight * (outSum g s)⁻¹) := by
    apply List.map_congr_left
    intro a ha
    have ha' : a.start = s := by simpa using (List.mem_filter.1 ha).2
    simp only [Function.comp, ha', hs, if_true, outSum, div_eq_mul_inv]
  rw [this, List.sum_map_mul_right, div_eq_mul_inv]
  rfl

theorem outSum_dividedBy_other [Field F] (g : Graph F) (ss : List ℕ) (s : ℕ) (hs : s ∉ ss) :
    outSum (dividedBy g ss) s = outSum g s
    ∧ (dividedBy g ss).arcs.filter (fun a => a.start = s) = g.arcs.filter (fun a => a.start = s) := by
  have h2 : (dividedBy g ss).arcs.filter (fun a => a.start = s) = g.arcs.filter (fun a => a.start = s) := by
    unfold dividedBy
    simp only
    rw [filter_map_start _ _ (by intro a; split <;> rfl)]
    conv_rhs => rw [← List.map_id (g.arcs.filter (fun a => a.start = s))]
    apply List.map_congr_left
    intro a ha
    have ha' : a.start = s := by simpa using (List.mem_filter.1 ha).2
    simp [ha', hs]
  exact ⟨by unfold outSum; rw [h2], h2⟩

theorem normalizeState_ok [Field F] [DecidableEq F] (g : Graph F) (s : ℕ) :
    normalizeState g s = if g.arcs.filter (fun a => a.start = s) ≠ [] ∧ outSum g s = 0
      then .error .zeroDivision else .ok (dividedBy g [s]) := by
  unfold normalizeState
  simp only [arcsFrom]
  by_cases h0 : g.arcs.filter (fun a => a.start = s) ≠ [] ∧ outSum g s = 0
  · rw [if_pos h0]; exact if_pos h0
  · rw [if_neg h0]
    refine (if_neg h0).trans ?_
    congr 1
    unfold dividedBy
    simp only
    congr 1
    apply List.map_congr_left
    intro a _
    by_cases h : a.start = s
    · simp [h]; rfl
    · simp [h]

theorem dividedBy_cons [Field F] (g : Graph F) (s : ℕ) (ss : List ℕ) (hs : s ∉ ss) :
    dividedBy (dividedBy g [s]) ss = dividedBy g (s :: ss) := by
  have key : ∀ g' : Graph F, g'.arcs = g.arcs.map (fun a => if a.start ∈ [s]
        then { a with weight := a.weight / outSum g a.start } else a) →
      (∀ s', s' ≠ s → outSum g' s' = outSum g s') →
      g'.arcs.map (fun a => if a.start ∈ ss
        then { a with weight := a.weight / outSum g' a.start } else a)
      = g.arcs.map (fun a => if a.start ∈ s :: ss
        then { a with weight := a.weight / outSum g a.start } else a) := by
    intro g' h1 h2
    rw [h1, List.map_map]
    apply List.map_congr_left
    intro a _
    by_cases h3 : a.start = s
    · simp [Function.comp, h3, hs]
    · by_cases h4 : a.start ∈ ss
      · simp [Function.comp, h3, h4, h2 _ h3]
      · simp [Function.comp, h3, h4]
  have := key (dividedBy g [s]) rfl (fun s' hs' =>
    (outSum_dividedBy_other g [s] s' (by simpa using hs')).1)
  exact congrArg (fun l => ({ g with arcs := l } : Graph F)) this

theorem normalizeLoop_ok [Field F] [DecidableEq F] (ss : List ℕ) (hn : ss.Nodup) (g : Graph F) :
    ((∀ s ∈ ss, g.arcs.filter (fun a => a.start = s) ≠ [] → outSum g s ≠ 0) →
      normalizeLoop ss g = (dividedBy g ss, none))
    ∧ ((∃ s ∈ ss, g.arcs.filter (fun a => a.start = s) ≠ [] ∧ outSum g s = 0) →
      (normalizeLoop ss g).2 = some .zeroDivision) := by
  induction ss generalizing g with
  | nil => simp [normalizeLoop, dividedBy]
  | cons s ss ih =>
    rw [List.nodup_cons] at hn
    have hne : ∀ s' ∈ ss, s' ∉ [s] := by
      intro s' hs' h
      rw [List.mem_singleton] at h
      subst h; exact hn.1 hs'
    have ih' := ih hn.2 (dividedBy g [s])
    simp only [normalizeLoop, normalizeState_ok]
    constructor
    · intro h
      rw [if_neg (fun h' => h s List.mem_cons_self h'.1 h'.2)]
      simp only
      rw [ih'.1]
      · congr 1
        exact dividedBy_cons g s ss hn.1
      · intro s' hs' hne'
        rw [(outSum_dividedBy_other g [s] s' (hne s' hs')).1]
        rw [(outSum_dividedBy_other g [s] s' (hne s' hs')).2] at hne'
        exact h s' (List.mem_cons_of_mem _ hs') hne'
    · rintro ⟨s', hs', h1, h2⟩
      by_cases h0 : g.arcs.filter (fun a => a.start = s) ≠ [] ∧ outSum g s = 0
      · rw [if_pos h0]
      · rw [if_neg h0]
        simp only
        rcases List.mem_cons.1 hs' with rfl | hs''
        · exact absurd ⟨h1, h2⟩ h0
        · apply ih'.2
          refine ⟨s', hs'', ?_, ?_⟩
          · rw [(outSum_dividedBy_other g [s] s' (hne s' hs'')).2]; exact h1
          · rw [(outSum_dividedBy_other g [s] s' (hne s' hs'')).1]; exact h2

/-- **C02.** `normalize` succeeds when no state has outgoing weights summing to zero: every weight is
divided by the sum of the weights leaving the same state (so the ratios are unchanged), and the
states, pdf ids, arcs, start and end states are the same. -/
theorem C02_normalize_divides [Field F] [DecidableEq F] (g : Graph F) (hn : g.ids.Nodup)
    (h0 : ∀ s ∈ g.ids, (∃ a ∈ g.arcs, a.start = s) → outSum g s ≠ 0) :
    g.normalize.2 = none
    ∧ g.normalize.1.arcs = g.arcs.map (fun a => if a.start ∈ g.ids
        then ⟨a.start, a.stop, a.weight / outSum g a.start⟩ else a)
    ∧ g.normalize.1.states = g.states ∧ g.normalize.1.count = g.count
    ∧ g.normalize.1.startState = g.startState ∧ g.normalize.1.endState = g.endState := by
  have h := (normalizeLoop_ok g.ids hn g).1 (fun s hs hne => h0 s hs (by
    obtain ⟨a, ha⟩ := List.exists_mem_of_ne_nil _ hne
    have := List.mem_filter.1 ha
    exact ⟨a, this.1, by simpa using this.2⟩))
  unfold normalize
  rw [h]
  exact ⟨rfl, rfl, rfl, rfl, rfl, rfl⟩

/-- **C02.** After a successful `normalize` the weights leaving any state that has arcs sum to one. -/
theorem C02_sums_to_one [Field F] [DecidableEq F] (g : Graph F) (hn : g.ids.Nodup)
    (hok : g.normalize.2 = none) (s : ℕ) (hs : s ∈ g.ids) (ha : ∃ a ∈ g.arcs, a.start = s) :
    outSum g.normalize.1 s = 1 := by
  have hne : g.arcs.filter (fun a => a.start = s) ≠ [] := by
    obtain ⟨a, ha, hs⟩ := ha
    exact List.ne_nil_of_mem (List.mem_filter.2 ⟨ha, by simpa using hs⟩)
  have h2 := (normalizeLoop_ok g.ids hn g).2
  have hall : ∀ s ∈ g.ids, g.arcs.filter (fun a => a.start = s) ≠ [] → outSum g s ≠ 0 := by
    intro s' hs' h' h0
    have := h2 ⟨s', hs', h', h0⟩
    rw [show (normalizeLoop g.ids g).2 = none from hok] at this
    cases this
  have h1 := (normalizeLoop_ok g.ids hn g).1 hall
  unfold normalize
  rw [h1, outSum_dividedBy_self g g.ids s hs]
  exact div_self (hall s hs hne)

/-- **C02.** Normalising twice is normalising once. -/
theorem C02_idempotent [Field F] [DecidableEq F] (g : Graph F) (hn : g.ids.Nodup)
    (hok : g.normalize.2 = none) : g.normalize.1.normalize = (g.normalize.1, none) := by
  have hid : g.normalize.1.ids = g.ids := by
    unfold ids normalize; rw [(normalizeLoop_frame g.ids g).2.1]
  have hone : ∀ s ∈ g.ids, (∃ a ∈ g.normalize.1.arcs, a.start = s) → outSum g.normalize.1 s = 1 := by
    intro s hs ⟨a, ha, has⟩
    refine C02_sums_to_one g hn hok s hs ?_
    have hk : a.key ∈ g.keys := by
      rw [← (normalizeLoop_frame g.ids g).2.2.1]
      exact List.mem_map.2 ⟨a, ha, rfl⟩
    obtain ⟨b, hb, hbk⟩ := List.mem_map.1 hk
    exact ⟨b, hb, by rw [← has]; exact congrArg Prod.fst hbk⟩
  have h := (normalizeLoop_ok g.normalize.1.ids (by rw [hid]; exact hn) g.normalize.1).1 (by
    intro s hs hne
    obtain ⟨a, ha⟩ := List.exists_mem_of_ne_nil _ hne
    have := List.mem_filter.1 ha
    rw [hone s (by rwa [hid] at hs) ⟨a, this.1, by simpa using this.2⟩]
    exact one_ne_zero)
  conv_lhs => rw [normalize]
  rw [h]
  congr 1
  unfold dividedBy
  simp only
  have : g.normalize.1.arcs.map (fun a => if a.start ∈ g.normalize.1.ids
      then { a with weight := a.weight / outSum g.normalize.1 a.start } else a) = g.normalize.1.arcs := by
    conv_rhs => rw [← List.map_id g.normalize.1.arcs]
    apply List.map_congr_left
    intro a ha
    by_cases hs : a.start ∈ g.normalize.1.ids
    · rw [if_pos hs, hone a.start (by rwa [hid] at hs) ⟨a, ha, rfl⟩]
      simp
    · rw [if_neg hs]; rfl
  rw [this]

/-- **C02.** A state whose outgoing weights sum to zero makes the call fail. -/
theorem C02_zero_sum_fails [Field F] [DecidableEq F] (g : Graph F) (hn : g.ids.Nodup) (s : ℕ)
    (hs : s ∈ g.ids) (ha : ∃ a ∈ g.arcs, a.start = s) (h0 : outSum g s = 0) :
    g.normalize.2 = some .zeroDivision := by
  refine (normalizeLoop_ok g.ids hn g).2 ⟨s, hs, ?_, h0⟩
  obtain ⟨a, ha, hs⟩ := ha
  exact List.ne_nil_of_mem (List.mem_filter.2 ⟨ha, by simpa using hs⟩)

/-- Two states, one with weights 1 and 3. -/
def demoNorm : Graph ℚ := ⟨2, [(0, none), (1, some 0)], [⟨0, 1, 3⟩, ⟨0, 0, 1⟩, ⟨1, 1, 5⟩], some 0, some 1⟩

example : outSum demoNorm.normalize.1 0 = 1 :=
  C02_sums_to_one demoNorm (by decide) (by decide +kernel) 0 (by decide) ⟨⟨0, 1, 3⟩, by decide, rfl⟩
example : (demoNorm.normalize.1.arcs.map (·.weight)) = [3/4, 1/4, 1] := by decide +kernel
example : (normalize (F := ℚ) { demoNorm with arcs := [⟨0, 1, 3⟩, ⟨0, 0, -3⟩] }).2 = some .zeroDivision := by
  decide +kernel

end Verif.Props
