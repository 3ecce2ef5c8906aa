import Verif.Lemmas.Graph
import Verif.Spec.Graph
import Mathlib.Algebra.Order.Field.Basic
import Mathlib.Algebra.BigOperators.Group.Finset.Basic
import Mathlib.Algebra.Order.BigOperators.Group.List
import Mathlib.Algebra.BigOperators.Ring.List
import Mathlib.Tactic.Linarith

/-! # Helper lemmas on the compilation of graphs -/

namespace Verif
namespace Graph

open Spec

variable {F : Type}

theorem lookup_mem {β : Type} (l : List (ℕ × β)) (i : ℕ) (v : β) (h : l.lookup i = some v) :
    (i, v) ∈ l := by
  induction l with
  | nil => simp at h
  | cons a l ih =>
    obtain ⟨j, w⟩ := a
    rw [List.lookup_cons] at h
    by_cases hij : i = j
    · subst hij; simp at h; subst h; exact List.mem_cons_self
    · have : (i == j) = false := by simpa using hij
      rw [this] at h
      exact List.mem_cons_of_mem _ (ih h)

theorem lookup_of_mem {β : Type} (l : List (ℕ × β)) (i : ℕ) (v : β) (hn : (l.map Prod.fst).Nodup)
    (h : (i, v) ∈ l) : l.lookup i = some v := by
  induction l with
  | nil => simp at h
  | cons a l ih =>
    obtain ⟨j, w⟩ := a
    rw [List.map_cons, List.nodup_cons] at hn
    rw [List.lookup_cons]
    rcases List.mem_cons.1 h with h | h
    · cases h; simp
    · have hij : i ≠ j := by
        intro hij
        exact hn.1 (List.mem_map.2 ⟨(i, v), h, hij⟩)
      have : (i == j) = false := by simpa using hij
      rw [this]
      exact ih hn.2 h

theorem pdfOf_emits (g : Graph F) (h : g.Inv) (i : ℕ) :
    (∃ p, g.pdfOf i = some (some p)) ↔ Emits g i :=
  ⟨fun ⟨p, hp⟩ => ⟨p, lookup_mem _ _ _ hp⟩, fun ⟨p, hp⟩ => ⟨p, lookup_of_mem _ _ _ h.ids_nodup hp⟩⟩

theorem pdfOf_silent (g : Graph F) (h : g.Inv) (i : ℕ) : g.pdfOf i = some none ↔ Silent g i :=
  ⟨fun hp => lookup_mem _ _ _ hp, fun hp => lookup_of_mem _ _ _ h.ids_nodup hp⟩

theorem pdfOf_some (g : Graph F) (i : ℕ) (h : i ∈ g.ids) : g.pdfOf i ≠ none := by
  intro hn
  obtain ⟨s, hs, rfl⟩ := List.mem_map.1 h
  rw [pdfOf, List.lookup_eq_none_iff] at hn
  exact absurd (hn s hs) (by simp)

/-! ### Unfolding of the search -/

/-- The entries stacked for a new non-emitting state. -/
def pushed [Mul F] (g : Graph F) (n : ℕ) (w : F) : List (Arc F × F) :=
  ((g.arcsFrom (some n)).map (fun a => (a, a.weight * w))).reverse

theorem mem_pushed [Mul F] (g : Graph F) (n : ℕ) (w : F) (x : Arc F × F) :
    x ∈ g.pushed n w ↔ (x.1 ∈ g.arcs ∧ x.1.start = n) ∧ x.2 = x.1.weight * w := by
  simp only [pushed, List.mem_reverse, List.mem_map, arcsFrom, List.mem_filter, decide_eq_true_eq]
  constructor
  · rintro ⟨a, ha, rfl⟩; exact ⟨ha, rfl⟩
  · rintro ⟨h1, h2⟩; exact ⟨x.1, h1, Prod.ext rfl h2.symm⟩

theorem nextLoop_ind [Mul F] (g : Graph F) {P : List (Arc F × F) → List ℕ → Prop}
    (hnil : ∀ v, P [] v)
    (herr : ∀ a w rest v, g.pdfOf a.stop = none → P ((a, w) :: rest) v)
    (hemit : ∀ a w rest v p, g.pdfOf a.stop = some (some p) → P rest v → P ((a, w) :: rest) v)
    (hnew : ∀ a w rest v, g.pdfOf a.stop = some none → a.stop ∉ v →
      P (g.pushed a.stop w ++ rest) (a.stop :: v) → P ((a, w) :: rest) v)
    (hold : ∀ a w rest v, g.pdfOf a.stop = some none → a.stop ∈ v → P rest v → P ((a, w) :: rest) v)
    (stack : List (Arc F × F)) (v : List ℕ) : P stack v := by
  generalize hn : stack.length + (g.unvisited v).length = n
  induction n using Nat.strong_induction_on generalizing stack v with
  | _ n ih =>
    match stack with
    | [] => exact hnil v
    | (a, w) :: rest =>
      cases hp : g.pdfOf a.stop with
      | none => exact herr a w rest v hp
      | some o =>
        cases o with
        | some p =>
          refine hemit a w rest v p hp (ih _ ?_ rest v rfl)
          simp at hn; omega
        | none =>
          by_cases hv : a.stop ∈ v
          · refine hold a w rest v hp hv (ih _ ?_ rest v rfl)
            simp at hn; omega
          · refine hnew a w rest v hp hv (ih _ ?_ _ _ rfl)
            have := g.unvisited_cons v a.stop hv
            simp [pushed] at hn ⊢; omega

theorem nextLoop_nil [Mul F] (g : Graph F) (v : List ℕ) : g.nextLoop [] v = .ok [] := by
  rw [nextLoop]

theorem nextLoop_err [Mul F] (g : Graph F) (a : Arc F) (w : F) (rest : List (Arc F × F)) (v : List ℕ)
    (h : g.pdfOf a.stop = none) : g.nextLoop ((a, w) :: rest) v = .error .keyError := by
  rw [nextLoop]; simp only [h]

theorem nextLoop_emit [Mul F] (g : Graph F) (a : Arc F) (w : F) (rest : List (Arc F × F))
    (v : List ℕ) (p : ℕ) (h : g.pdfOf a.stop = some (some p)) :
    g.nextLoop ((a, w) :: rest) v
      = (g.nextLoop rest v).map (fun l => (a.stop, w * a.weight) :: l) := by
  rw [nextLoop]; simp only [h]
  cases g.nextLoop rest v <;> rfl

theorem nextLoop_new [Mul F] (g : Graph F) (a : Arc F) (w : F) (rest : List (Arc F × F))
    (v : List ℕ) (h : g.pdfOf a.stop = some none) (hv : a.stop ∉ v) :
    g.nextLoop ((a, w) :: rest) v = g.nextLoop (g.pushed a.stop w ++ rest) (a.stop :: v) := by
  conv_lhs => rw [nextLoop]
  simp only [h]
  rw [dif_pos hv]
  rfl

theorem nextLoop_old [Mul F] (g : Graph F) (a : Arc F) (w : F) (rest : List (Arc F × F))
    (v : List ℕ) (h : g.pdfOf a.stop = some none) (hv : a.stop ∈ v) :
    g.nextLoop ((a, w) :: rest) v = g.nextLoop rest v := by
  rw [nextLoop]
  simp only [h]
  rw [dif_neg (not_not_intro hv)]

/-! ### The search never fails on closed graphs -/

theorem nextLoop_ok [Mul F] (g : Graph F) (hc : Closed g) (stack : List (Arc F × F))
    (visited : List ℕ) : (∀ x ∈ stack, x.1 ∈ g.arcs) →
    ∃ l, g.nextLoop stack visited = .ok l := by
  refine nextLoop_ind g (P := fun stack visited => (∀ x ∈ stack, x.1 ∈ g.arcs) →
    ∃ l, g.nextLoop stack visited = .ok l) ?_ ?_ ?_ ?_ ?_ stack visited
  · intro v _; exact ⟨[], nextLoop_nil g v⟩
  · intro a w rest v hp hs
    exact absurd hp (pdfOf_some g _ (hc a (hs _ List.mem_cons_self)).2)
  · intro a w rest v p hp ih hs
    obtain ⟨l, hl⟩ := ih (fun x hx => hs x (List.mem_cons_of_mem _ hx))
    exact ⟨_, by rw [nextLoop_emit g a w rest v p hp, hl]; rfl⟩
  · intro a w rest v hp hv ih hs
    rw [nextLoop_new g a w rest v hp hv]
    refine ih ?_
    intro x hx
    rcases List.mem_append.1 hx with hx | hx
    · exact ((mem_pushed g _ _ x).1 hx).1.1
    · exact hs x (List.mem_cons_of_mem _ hx)
  · intro a w rest v hp hv ih hs
    rw [nextLoop_old g a w rest v hp hv]
    exact ih (fun x hx => hs x (List.mem_cons_of_mem _ hx))

theorem findNext_ok [Mul F] (g : Graph F) (hc : Closed g) (s : Option ℕ) (w : F) :
    ∃ l, g.findNext s w = .ok l := by
  refine nextLoop_ok g hc _ _ ?_
  intro x hx
  rw [List.mem_reverse] at hx
  obtain ⟨a, ha, rfl⟩ := List.mem_map.1 hx
  cases s with
  | none => exact ha
  | some s => exact (List.mem_filter.1 ha).1

/-! ### What the search finds -/

/-- Path from `x` to the emitting state `e` through non-emitting states outside `v`. -/
inductive Avoid (g : Graph F) (v : List ℕ) (e : ℕ) : ℕ → Prop
  | emit : Emits g e → Avoid g v e e
  | step (a : Arc F) : a ∈ g.arcs → Silent g a.start → a.start ∉ v → Avoid g v e a.stop →
      Avoid g v e a.start

theorem Avoid.cut (g : Graph F) (v : List ℕ) (e x n : ℕ) (h : Avoid g v e x) :
    Avoid g (n :: v) e x ∨ ∃ a ∈ g.arcs, a.start = n ∧ Avoid g (n :: v) e a.stop := by
  induction h with
  | emit he => exact Or.inl (.emit he)
  | step a ha hs hv _ ih =>
    rcases ih with ih | ih
    · by_cases hn : a.start = n
      · exact Or.inr ⟨a, ha, hn, ih⟩
      · exact Or.inl (.step a ha hs (by simp [hn, hv]) ih)
    · exact Or.inr ih

theorem emits_silent (g : Graph F) (h : g.Inv) (i : ℕ) (he : Emits g i) (hs : Silent g i) : False := by
  obtain ⟨p, hp⟩ := (pdfOf_emits g h i).2 he
  rw [(pdfOf_silent g h i).2 hs] at hp
  cases hp

/-- The search reports every state that can be reached. -/
theorem nextLoop_complete [Mul F] (g : Graph F) (hg : g.Inv) (stack : List (Arc F × F))
    (visited : List ℕ) : ∀ l, g.nextLoop stack visited = .ok l →
    ∀ x ∈ stack, ∀ e, Avoid g visited e x.1.stop → ∃ y ∈ l, y.1 = e := by
  refine nextLoop_ind g (P := fun stack visited => ∀ l, g.nextLoop stack visited = .ok l →
    ∀ x ∈ stack, ∀ e, Avoid g visited e x.1.stop → ∃ y ∈ l, y.1 = e) ?_ ?_ ?_ ?_ ?_ stack visited
  · intro v l _ x hx; simp at hx
  · intro a w rest v hp l hl
    rw [nextLoop_err g a w rest v hp] at hl; cases hl
  · intro a w rest v p hp ih l hl x hx e he
    rw [nextLoop_emit g a w rest v p hp] at hl
    cases hr : g.nextLoop rest v with
    | error e => rw [hr] at hl; cases hl
    | ok l' =>
      rw [hr] at hl
      cases hl
      rcases List.mem_cons.1 hx with rfl | hx
      · refine ⟨_, List.mem_cons_self, ?_⟩
        generalize hz : a.stop = z at he
        cases he with
        | emit => rfl
        | step b _ hs _ _ =>
          exact (emits_silent g hg _ ((pdfOf_emits g hg _).1 ⟨p, hz ▸ hp⟩) hs).elim
      · obtain ⟨y, hy, hye⟩ := ih l' hr x hx e he
        exact ⟨y, List.mem_cons_of_mem _ hy, hye⟩
  · intro a w rest v hp hv ih l hl x hx e he
    rw [nextLoop_new g a w rest v hp hv] at hl
    rcases he.cut g v e _ a.stop with h | ⟨b, hb, hbs, h⟩
    · rcases List.mem_cons.1 hx with rfl | hx
      · -- a path from a.stop avoiding a.stop
        generalize hz : a.stop = z at h
        cases h with
        | emit he' => exact (emits_silent g hg _ he' ((pdfOf_silent g hg _).1 (hz ▸ hp))).elim
        | step b _ _ hn _ => exact absurd (hz ▸ List.mem_cons_self) hn
      · exact ih l hl x (List.mem_append_right _ hx) e h
    · exact ih l hl (b, b.weight * w)
        (List.mem_append_left _ ((mem_pushed g _ _ _).2 ⟨⟨hb, hbs⟩, rfl⟩)) e h
  · intro a w rest v hp hv ih l hl x hx e he
    rw [nextLoop_old g a w rest v hp hv] at hl
    rcases List.mem_cons.1 hx with rfl | hx
    · generalize hz : a.stop = z at he
      cases he with
      | emit he' => exact (emits_silent g hg _ he' ((pdfOf_silent g hg _).1 (hz ▸ hp))).elim
      | step b _ _ hn _ => exact absurd (hz ▸ hv) hn
    · exact ih l hl x hx e he

/-- Everything reported is reached, and with a positive weight if all the weights are positive (a
non-negative one if they are non-negative). -/
theorem nextLoop_sound [Field F] [LinearOrder F] [IsStrictOrderedRing F] (g : Graph F) (hg : g.Inv)
    (stack : List (Arc F × F)) (visited : List ℕ) : ∀ l, g.nextLoop stack visited = .ok l →
    ∀ y ∈ l, (∃ x ∈ stack, Avoid g [] y.1 x.1.stop) ∧ Emits g y.1
      ∧ ((∀ a ∈ g.arcs, 0 ≤ a.weight) → (∀ x ∈ stack, x.1 ∈ g.arcs ∧ 0 ≤ x.2) → 0 ≤ y.2)
      ∧ ((∀ a ∈ g.arcs, 0 < a.weight) → (∀ x ∈ stack, x.1 ∈ g.arcs ∧ 0 < x.2) → 0 < y.2) := by
  refine nextLoop_ind g (P := fun stack visited => ∀ l, g.nextLoop stack visited = .ok l →
    ∀ y ∈ l, (∃ x ∈ stack, Avoid g [] y.1 x.1.stop) ∧ Emits g y.1
      ∧ ((∀ a ∈ g.arcs, 0 ≤ a.weight) → (∀ x ∈ stack, x.1 ∈ g.arcs ∧ 0 ≤ x.2) → 0 ≤ y.2)
      ∧ ((∀ a ∈ g.arcs, 0 < a.weight) → (∀ x ∈ stack, x.1 ∈ g.arcs ∧ 0 < x.2) → 0 < y.2))
    ?_ ?_ ?_ ?_ ?_ stack visited
  · intro v l hl y hy; rw [nextLoop_nil] at hl; cases hl; simp at hy
  · intro a w rest v hp l hl
    rw [nextLoop_err g a w rest v hp] at hl; cases hl
  · intro a w rest v p hp ih l hl y hy
    rw [nextLoop_emit g a w rest v p hp] at hl
    have hem : Emits g a.stop := (pdfOf_emits g hg _).1 ⟨p, hp⟩
    cases hr : g.nextLoop rest v with
    | error e => rw [hr] at hl; cases hl
    | ok l' =>
      rw [hr] at hl
      cases hl
      rcases List.mem_cons.1 hy with rfl | hy
      · refine ⟨⟨(a, w), List.mem_cons_self, .emit hem⟩, hem, ?_, ?_⟩
        · intro h1 h2
          have := h2 (a, w) List.mem_cons_self
          exact mul_nonneg this.2 (h1 a this.1)
        · intro h1 h2
          have := h2 (a, w) List.mem_cons_self
          exact mul_pos this.2 (h1 a this.1)
      · obtain ⟨⟨x, hx, h1⟩, h2, h3, h4⟩ := ih l' hr y hy
        exact ⟨⟨x, List.mem_cons_of_mem _ hx, h1⟩, h2,
          fun h h' => h3 h (fun x hx => h' x (List.mem_cons_of_mem _ hx)),
          fun h h' => h4 h (fun x hx => h' x (List.mem_cons_of_mem _ hx))⟩
  · intro a w rest v hp hv ih l hl y hy
    rw [nextLoop_new g a w rest v hp hv] at hl
    obtain ⟨⟨x, hx, h1⟩, h2, h3, h4⟩ := ih l hl y hy
    refine ⟨?_, h2, ?_, ?_⟩
    · rcases List.mem_append.1 hx with hx | hx
      · have hm := (mem_pushed g _ _ _).1 hx
        refine ⟨(a, w), List.mem_cons_self, ?_⟩
        have hstep := Avoid.step (v := []) (e := y.1) x.1 hm.1.1
          (hm.1.2 ▸ (pdfOf_silent g hg _).1 hp) (by simp) h1
        rw [hm.1.2] at hstep
        exact hstep
      · exact ⟨x, List.mem_cons_of_mem _ hx, h1⟩
    · intro h h'
      refine h3 h ?_
      intro x hx
      rcases List.mem_append.1 hx with hx | hx
      · have hm := (mem_pushed g _ _ _).1 hx
        refine ⟨hm.1.1, ?_⟩
        rw [hm.2]
        exact mul_nonneg (h _ hm.1.1) (h' _ List.mem_cons_self).2
      · exact h' x (List.mem_cons_of_mem _ hx)
    · intro h h'
      refine h4 h ?_
      intro x hx
      rcases List.mem_append.1 hx with hx | hx
      · have hm := (mem_pushed g _ _ _).1 hx
        refine ⟨hm.1.1, ?_⟩
        rw [hm.2]
        exact mul_pos (h _ hm.1.1) (h' _ List.mem_cons_self).2
      · exact h' x (List.mem_cons_of_mem _ hx)
  · intro a w rest v hp hv ih l hl y hy
    rw [nextLoop_old g a w rest v hp hv] at hl
    obtain ⟨⟨x, hx, h1⟩, h2, h3, h4⟩ := ih l hl y hy
    exact ⟨⟨x, List.mem_cons_of_mem _ hx, h1⟩, h2,
      fun h h' => h3 h (fun x hx => h' x (List.mem_cons_of_mem _ hx)),
      fun h h' => h4 h (fun x hx => h' x (List.mem_cons_of_mem _ hx))⟩

theorem EpsPath.avoid (g : Graph F) (e s : ℕ) (p : List (Arc F)) (h : EpsPath g e s p) :
    ∃ a ∈ g.arcs, a.start = s ∧ Avoid g [] e a.stop := by
  induction h with
  | last a ha hae he => exact ⟨a, ha, rfl, by rw [hae]; exact .emit he⟩
  | step a p ha hs _ ih =>
    obtain ⟨b, hb, hbs, hav⟩ := ih
    refine ⟨a, ha, rfl, ?_⟩
    rw [← hbs]
    exact .step b hb (hbs ▸ hs) (by simp) hav

theorem Avoid.epsPath (g : Graph F) (v : List ℕ) (e x : ℕ) (h : Avoid g v e x) (a : Arc F)
    (ha : a ∈ g.arcs) (hx : a.stop = x) : ∃ p, EpsPath g e a.start p := by
  induction h generalizing a with
  | emit he => exact ⟨[a], .last a ha hx he⟩
  | step b hb hs _ _ ih =>
    obtain ⟨p, hp⟩ := ih b hb rfl
    exact ⟨a :: p, .step a p ha (hx ▸ hs) (hx ▸ hp)⟩

theorem findNext_complete [Mul F] (g : Graph F) (hg : g.Inv) (s : ℕ) (w : F) (l : List (ℕ × F))
    (hl : g.findNext (some s) w = .ok l) (e : ℕ) (p : List (Arc F)) (h : EpsPath g e s p) :
    ∃ y ∈ l, y.1 = e := by
  obtain ⟨a, ha, has, hav⟩ := EpsPath.avoid g e s p h
  have key : ∃ a ∈ g.arcs, a.start = s ∧ Avoid g [s] e a.stop := by
    rcases hav.cut g [] e _ s with h | h
    · exact ⟨a, ha, has, h⟩
    · exact h
  obtain ⟨b, hb, hbs, hbv⟩ := key
  refine nextLoop_complete g hg _ _ l hl (b, w) ?_ e hbv
  rw [List.mem_reverse, List.mem_map]
  exact ⟨b, List.mem_filter.2 ⟨hb, by simpa using hbs⟩, rfl⟩

theorem findNext_sound [Field F] [LinearOrder F] [IsStrictOrderedRing F] (g : Graph F) (hg : g.Inv)
    (s : ℕ) (w : F) (l : List (ℕ × F)) (hl : g.findNext (some s) w = .ok l) :
    ∀ y ∈ l, (∃ p, EpsPath g y.1 s p) ∧ Emits g y.1
      ∧ ((∀ a ∈ g.arcs, 0 ≤ a.weight) → 0 ≤ w → 0 ≤ y.2)
      ∧ ((∀ a ∈ g.arcs, 0 < a.weight) → 0 < w → 0 < y.2) := by
  intro y hy
  have hst : ∀ x ∈ ((g.arcsFrom (some s)).map (fun a => (a, w))).reverse,
      x.1 ∈ g.arcs ∧ x.1.start = s ∧ x.2 = w := by
    intro x hx
    rw [List.mem_reverse] at hx
    obtain ⟨a, ha, rfl⟩ := List.mem_map.1 hx
    have := List.mem_filter.1 ha
    exact ⟨this.1, by simpa using this.2, rfl⟩
  obtain ⟨⟨x, hx, h1⟩, h2, h3, h4⟩ := nextLoop_sound g hg _ _ l hl y hy
  refine ⟨?_, h2, fun ha hw => h3 ha (fun x hx => ⟨(hst x hx).1, (hst x hx).2.2 ▸ hw⟩),
    fun ha hw => h4 ha (fun x hx => ⟨(hst x hx).1, (hst x hx).2.2 ▸ hw⟩)⟩
  obtain ⟨p, hp⟩ := h1.epsPath g [] _ _ x.1 (hst x hx).1 rfl
  exact ⟨p, (hst x hx).2.1 ▸ hp⟩

/-! ### Accumulation in a vector -/

theorem accumProbs_eq [Field F] (g : Graph F) (v : ℕ → F) (l : List (ℕ × F)) (k : ℕ) :
    g.accumProbs v l k = v k + ((l.filter (fun y => k = g.stateIndex y.1)).map Prod.snd).sum := by
  induction l generalizing v with
  | nil => simp [accumProbs]
  | cons y l ih =>
    change g.accumProbs _ l k = _
    rw [ih]
    by_cases h : k = g.stateIndex y.1
    · simp [← h]; ring
    · simp [h]

theorem emits_mem (g : Graph F) (i : ℕ) : Emits g i ↔ i ∈ g.emitting := by
  unfold Emits emitting
  rw [List.mem_filterMap]
  constructor
  · rintro ⟨p, hp⟩; exact ⟨(i, some p), hp, rfl⟩
  · rintro ⟨⟨j, o⟩, hs, h⟩
    cases o with
    | none => cases h
    | some p => simp at h; subst h; exact ⟨p, hs⟩

theorem accumProbs_sum [Field F] (g : Graph F) (l : List (ℕ × F)) (hl : ∀ y ∈ l, Emits g y.1) :
    ((List.range g.emitting.length).map (g.accumProbs (fun _ => 0) l)).sum = (l.map Prod.snd).sum := by
  have h0 : (g.accumProbs (fun _ => 0) l)
      = fun k => ((l.filter (fun y => k = g.stateIndex y.1)).map Prod.snd).sum := by
    funext k; rw [accumProbs_eq, zero_add]
  rw [h0]
  clear h0
  induction l with
  | nil => simp
  | cons y l ih =>
    have hy : g.stateIndex y.1 < g.emitting.length :=
      List.idxOf_lt_length_of_mem ((emits_mem g _).1 (hl y List.mem_cons_self))
    have h1 : (fun k => (((y :: l).filter (fun y => k = g.stateIndex y.1)).map Prod.snd).sum)
        = fun k => (if k = g.stateIndex y.1 then y.2 else 0)
            + ((l.filter (fun y => k = g.stateIndex y.1)).map Prod.snd).sum := by
      funext k
      by_cases h : k = g.stateIndex y.1 <;> simp [h]
    rw [h1, List.sum_map_add, ih (fun y hy => hl y (List.mem_cons_of_mem _ hy)), List.map_cons,
      List.sum_cons]
    congr 1
    generalize g.stateIndex y.1 = m at hy
    generalize g.emitting.length = n at hy
    clear ih h1
    induction n with
    | zero => omega
    | succ n ih =>
      rw [List.range_succ, List.map_append, List.sum_append]
      by_cases hm : m = n
      · subst hm
        have : (List.map (fun k => if k = m then y.2 else 0) (List.range m)).sum = 0 := by
          apply List.sum_eq_zero
          intro x hx
          obtain ⟨k, hk, rfl⟩ := List.mem_map.1 hx
          rw [if_neg]
          rw [List.mem_range] at hk; omega
        rw [this]; simp
      · rw [ih (by omega)]
        simp [Ne.symm hm]

/-! ### Graphs with unique paths between non-emitting states -/

/-- Weight given by the search to the path `a :: q` when `a` was stacked with weight `w`. -/
def compVal [Mul F] : Arc F → F → List (Arc F) → F
  | a, w, [] => w * a.weight
  | _, w, b :: q => compVal b (b.weight * w) q

/-- Final state of the path `a :: q`. -/
def endOf : Arc F → List (Arc F) → ℕ
  | a, [] => a.stop
  | _, b :: q => endOf b q

theorem EpsPath.inv (g : Graph F) (e s : ℕ) (a : Arc F) (q : List (Arc F))
    (h : EpsPath g e s (a :: q)) : a.start = s ∧ a ∈ g.arcs
      ∧ ((q = [] ∧ a.stop = e ∧ Emits g e) ∨ (Silent g a.stop ∧ EpsPath g e a.stop q)) := by
  generalize hp : a :: q = p at h
  cases h with
  | last b hb hbe he => cases hp; exact ⟨rfl, hb, Or.inl ⟨rfl, hbe, he⟩⟩
  | step b p hb hs h => cases hp; exact ⟨rfl, hb, Or.inr ⟨hs, h⟩⟩

theorem EpsPath.not_nil (g : Graph F) (e s : ℕ) (h : EpsPath g e s []) : False := by
  generalize hp : ([] : List (Arc F)) = p at h
  cases h <;> cases hp

theorem EpsPath.end_eq (g : Graph F) (e s : ℕ) (a : Arc F) (q : List (Arc F))
    (h : EpsPath g e s (a :: q)) : endOf a q = e ∧ a.start = s ∧ a ∈ g.arcs ∧ Emits g e := by
  induction q generalizing a s with
  | nil =>
    obtain ⟨h1, h2, ⟨_, h3, h4⟩ | ⟨_, h3⟩⟩ := EpsPath.inv g e s a _ h
    · exact ⟨h3, h1, h2, h4⟩
    · exact (EpsPath.not_nil g e _ h3).elim
  | cons b q ih =>
    obtain ⟨h1, h2, ⟨h3, _⟩ | ⟨_, h3⟩⟩ := EpsPath.inv g e s a _ h
    · cases h3
    · exact ⟨(ih _ _ h3).1, h1, h2, (ih _ _ h3).2.2.2⟩

theorem nextLoop_unique [Mul F] (g : Graph F) (hg : g.Inv) (hu : UniqueSilent g)
    (stack : List (Arc F × F)) (visited : List ℕ) : ∀ l, g.nextLoop stack visited = .ok l →
    (∀ x ∈ stack, x.1 ∈ g.arcs) →
    (∀ x ∈ stack, ∀ n p, SilentPath g n x.1.stop p → n ∉ visited) →
    (stack.Pairwise (fun x y => ∀ n p q, SilentPath g n x.1.stop p → SilentPath g n y.1.stop q →
      False)) →
    (stack.map Prod.fst).Nodup →
    (∀ x ∈ stack, x.1.start ∈ visited) →
    ∃ ps : List ((Arc F × F) × List (Arc F)), ps.Nodup
      ∧ (∀ x q, (x, q) ∈ ps ↔ x ∈ stack ∧ ∃ e, EpsPath g e x.1.start (x.1 :: q))
      ∧ l = ps.map (fun y => (endOf y.1.1 y.2, compVal y.1.1 y.1.2 y.2)) := by
  refine nextLoop_ind g (P := fun stack visited => ∀ l, g.nextLoop stack visited = .ok l →
    (∀ x ∈ stack, x.1 ∈ g.arcs) →
    (∀ x ∈ stack, ∀ n p, SilentPath g n x.1.stop p → n ∉ visited) →
    (stack.Pairwise (fun x y => ∀ n p q, SilentPath g n x.1.stop p → SilentPath g n y.1.stop q →
      False)) →
    (stack.map Prod.fst).Nodup →
    (∀ x ∈ stack, x.1.start ∈ visited) →
    ∃ ps : List ((Arc F × F) × List (Arc F)), ps.Nodup
      ∧ (∀ x q, (x, q) ∈ ps ↔ x ∈ stack ∧ ∃ e, EpsPath g e x.1.start (x.1 :: q))
      ∧ l = ps.map (fun y => (endOf y.1.1 y.2, compVal y.1.1 y.1.2 y.2))) ?_ ?_ ?_ ?_ ?_ stack visited
  · intro v l hl _ _ _ _ _
    rw [nextLoop_nil] at hl; cases hl
    exact ⟨[], List.nodup_nil, by simp, rfl⟩
  · intro a w rest v hp l hl
    rw [nextLoop_err g a w rest v hp] at hl; cases hl
  · intro a w rest v p hp ih l hl i1 i2 i3 i4 i5
    rw [nextLoop_emit g a w rest v p hp] at hl
    have hem : Emits g a.stop := (pdfOf_emits g hg _).1 ⟨p, hp⟩
    rw [List.pairwise_cons] at i3
    rw [List.map_cons, List.nodup_cons] at i4
    cases hr : g.nextLoop rest v with
    | error e => rw [hr] at hl; cases hl
    | ok l' =>
      rw [hr] at hl
      cases hl
      obtain ⟨ps, h1, h2, h3⟩ := ih l' hr (fun x hx => i1 x (List.mem_cons_of_mem _ hx))
        (fun x hx => i2 x (List.mem_cons_of_mem _ hx)) i3.2 i4.2
        (fun x hx => i5 x (List.mem_cons_of_mem _ hx))
      refine ⟨((a, w), []) :: ps, ?_, ?_, ?_⟩
      · rw [List.nodup_cons]
        refine ⟨?_, h1⟩
        intro hm
        exact i4.1 (List.mem_map.2 ⟨(a, w), ((h2 _ _).1 hm).1, rfl⟩)
      · intro x q
        rw [List.mem_cons, List.mem_cons, h2]
        constructor
        · rintro (h | h)
          · cases h
            exact ⟨Or.inl rfl, a.stop, .last a (i1 (a, w) List.mem_cons_self) rfl hem⟩
          · exact ⟨Or.inr h.1, h.2⟩
        · rintro ⟨rfl | h, e, he⟩
          · left
            obtain ⟨_, _, ⟨h3, _⟩ | ⟨hs, _⟩⟩ := EpsPath.inv g e _ _ _ he
            · rw [h3]
            · exact (emits_silent g hg _ hem hs).elim
          · exact Or.inr ⟨h, e, he⟩
      · rw [h3]; rfl
  · intro a w rest v hp hv ih l hl i1 i2 i3 i4 i5
    rw [nextLoop_new g a w rest v hp hv] at hl
    have hsil : Silent g a.stop := (pdfOf_silent g hg _).1 hp
    have ha : a ∈ g.arcs := i1 (a, w) List.mem_cons_self
    rw [List.pairwise_cons] at i3
    rw [List.map_cons, List.nodup_cons] at i4
    have hpush : ∀ x ∈ g.pushed a.stop w, ∀ n p, SilentPath g n x.1.stop p →
        SilentPath g n a.stop (x.1 :: p) := by
      intro x hx n p h
      have hm := (mem_pushed g _ _ _).1 hx
      have := SilentPath.step x.1 p hm.1.1 (hm.1.2 ▸ hsil) h
      rwa [hm.1.2] at this
    have hnodupArcs : g.arcs.Nodup := List.Nodup.of_map _ hg.keys_nodup
    have hpfst : (g.pushed a.stop w).map Prod.fst = (g.arcsFrom (some a.stop)).reverse := by
      rw [pushed, List.map_reverse, List.map_map]
      congr 1
      exact List.map_id _
    have hpnodup : ((g.pushed a.stop w).map Prod.fst).Nodup := by
      rw [hpfst, List.nodup_reverse]
      exact hnodupArcs.sublist List.filter_sublist
    obtain ⟨ps, h1, h2, h3⟩ := ih l hl (by
        intro x hx
        rcases List.mem_append.1 hx with hx | hx
        · exact ((mem_pushed g _ _ _).1 hx).1.1
        · exact i1 x (List.mem_cons_of_mem _ hx)) (by
        intro x hx n p hnp
        rw [List.mem_cons, not_or]
        rcases List.mem_append.1 hx with hx | hx
        · have hpath := hpush x hx n p hnp
          refine ⟨?_, i2 (a, w) List.mem_cons_self n _ hpath⟩
          rintro rfl
          have := hu _ _ _ _ hpath (.nil hsil)
          cases this
        · refine ⟨?_, i2 x (List.mem_cons_of_mem _ hx) n p hnp⟩
          rintro rfl
          exact i3.1 x hx _ _ _ (.nil hsil) hnp) (by
        rw [List.pairwise_append]
        refine ⟨?_, i3.2, ?_⟩
        · have := List.Nodup.of_map _ hpnodup
          refine List.Pairwise.imp_of_mem ?_ (List.pairwise_map.1 hpnodup)
          intro x y hx hy hxy n p q hp hq
          have := hu _ _ _ _ (hpush x hx n p hp) (hpush y hy n q hq)
          exact hxy (List.cons.inj this).1
        · intro x hx y hy n p q hp hq
          exact i3.1 y hy n _ q (hpush x hx n p hp) hq) (by
        rw [List.map_append, List.nodup_append]
        refine ⟨hpnodup, i4.2, ?_⟩
        intro b hb c hc hbc
        obtain ⟨x, hx, rfl⟩ := List.mem_map.1 hb
        obtain ⟨y, hy, rfl⟩ := List.mem_map.1 hc
        have e1 := ((mem_pushed g _ _ _).1 hx).1.2
        have e2 := i5 y (List.mem_cons_of_mem _ hy)
        rw [← hbc, e1] at e2
        exact hv e2) (by
        intro x hx
        rcases List.mem_append.1 hx with hx | hx
        · rw [((mem_pushed g _ _ _).1 hx).1.2]; exact List.mem_cons_self
        · exact List.mem_cons_of_mem _ (i5 x (List.mem_cons_of_mem _ hx)))
    -- a found path either goes through `a` or starts lower in the stack
    let f : (Arc F × F) × List (Arc F) → (Arc F × F) × List (Arc F) := fun y =>
      if y.1.1.start = a.stop then ((a, w), y.1.1 :: y.2) else y
    have hf1 : ∀ y ∈ ps, y.1 ∈ g.pushed a.stop w → f y = ((a, w), y.1.1 :: y.2) := by
      intro y _ hy
      exact if_pos ((mem_pushed g _ _ _).1 hy).1.2
    have hf2 : ∀ y ∈ ps, y.1 ∈ rest → f y = y := by
      intro y _ hy
      refine if_neg ?_
      intro h
      exact hv (h ▸ i5 y.1 (List.mem_cons_of_mem _ hy))
    have hcase : ∀ y ∈ ps, y.1 ∈ g.pushed a.stop w ∨ y.1 ∈ rest := fun y hy =>
      List.mem_append.1 ((h2 y.1 y.2).1 hy).1
    have hanot : (a, w) ∉ rest := fun h => i4.1 (List.mem_map.2 ⟨_, h, rfl⟩)
    refine ⟨ps.map f, ?_, ?_, ?_⟩
    · rw [List.nodup_map_iff_inj_on h1]
      intro y hy z hz hyz
      rcases hcase y hy with hy' | hy' <;> rcases hcase z hz with hz' | hz'
      · rw [hf1 y hy hy', hf1 z hz hz'] at hyz
        have e1 : y.1.1 :: y.2 = z.1.1 :: z.2 := congrArg Prod.snd hyz
        have e2 : y.1.1 = z.1.1 := (List.cons.inj e1).1
        have e3 : y.2 = z.2 := (List.cons.inj e1).2
        have e4 : y.1.2 = z.1.2 := by
          rw [((mem_pushed g _ _ _).1 hy').2, ((mem_pushed g _ _ _).1 hz').2, e2]
        exact Prod.ext (Prod.ext e2 e4) e3
      · rw [hf1 y hy hy', hf2 z hz hz'] at hyz
        have : z.1 = (a, w) := (congrArg Prod.fst hyz).symm
        exact absurd (this ▸ hz') hanot
      · rw [hf2 y hy hy', hf1 z hz hz'] at hyz
        have : y.1 = (a, w) := congrArg Prod.fst hyz
        exact absurd (this ▸ hy') hanot
      · rw [hf2 y hy hy', hf2 z hz hz'] at hyz
        exact hyz
    · intro x q
      rw [List.mem_map, List.mem_cons]
      constructor
      · rintro ⟨y, hy, hfy⟩
        rcases hcase y hy with hy' | hy'
        · rw [hf1 y hy hy'] at hfy
          have hx : (a, w) = x := congrArg Prod.fst hfy
          have hq : y.1.1 :: y.2 = q := congrArg Prod.snd hfy
          obtain ⟨_, e, he⟩ := (h2 y.1 y.2).1 hy
          refine ⟨Or.inl hx.symm, e, ?_⟩
          rw [← hx, ← hq]
          refine .step a _ ha hsil ?_
          rwa [((mem_pushed g _ _ _).1 hy').1.2] at he
        · rw [hf2 y hy hy'] at hfy
          subst hfy
          exact ⟨Or.inr hy', ((h2 _ _).1 hy).2⟩
      · rintro ⟨rfl | hx, e, he⟩
        · cases q with
          | nil =>
            obtain ⟨_, _, ⟨_, hae, he'⟩ | ⟨_, h⟩⟩ := EpsPath.inv g e _ _ _ he
            · exact (emits_silent g hg _ he' (hae ▸ hsil)).elim
            · exact (EpsPath.not_nil g e _ h).elim
          | cons b q =>
            obtain ⟨_, _, ⟨h, _⟩ | ⟨_, h⟩⟩ := EpsPath.inv g e _ _ _ he
            · cases h
            · have hb := EpsPath.end_eq g e _ b q h
              have hbm : (b, b.weight * w) ∈ g.pushed a.stop w :=
                (mem_pushed g _ _ _).2 ⟨⟨hb.2.2.1, hb.2.1⟩, rfl⟩
              have hin : ((b, b.weight * w), q) ∈ ps :=
                (h2 _ _).2 ⟨List.mem_append_left _ hbm, e, by rw [hb.2.1]; exact h⟩
              exact ⟨_, hin, hf1 _ hin hbm⟩
        · have hin : (x, q) ∈ ps := (h2 _ _).2 ⟨List.mem_append_right _ hx, e, he⟩
          exact ⟨_, hin, hf2 _ hin hx⟩
    · rw [h3, List.map_map]
      apply List.map_congr_left
      intro y hy
      rcases hcase y hy with hy' | hy'
      · rw [Function.comp_apply, hf1 y hy hy']
        simp only [endOf, compVal, ((mem_pushed g _ _ _).1 hy').2]
      · rw [Function.comp_apply, hf2 y hy hy']
  · intro a w rest v hp hv ih l hl i1 i2 i3 i4 i5
    exact absurd hv (i2 (a, w) List.mem_cons_self a.stop [] (.nil ((pdfOf_silent g hg _).1 hp)))

/-- With unique paths, the search enumerates all the paths leaving a non-emitting state. -/
theorem findNext_unique [Mul F] (g : Graph F) (hg : g.Inv) (hu : UniqueSilent g) (s : ℕ) (w : F)
    (hs : Silent g s) (l : List (ℕ × F)) (hl : g.findNext (some s) w = .ok l) :
    ∃ ps : List (Arc F × List (Arc F)), ps.Nodup
      ∧ (∀ a q, (a, q) ∈ ps ↔ ∃ e, EpsPath g e s (a :: q))
      ∧ l = ps.map (fun y => (endOf y.1 y.2, compVal y.1 w y.2)) := by
  have hst : ∀ x, x ∈ ((g.arcsFrom (some s)).map (fun a => (a, w))).reverse ↔
      (x.1 ∈ g.arcs ∧ x.1.start = s) ∧ x.2 = w := by
    intro x
    rw [List.mem_reverse, List.mem_map]
    constructor
    · rintro ⟨a, ha, rfl⟩
      have := List.mem_filter.1 ha
      exact ⟨⟨this.1, by simpa using this.2⟩, rfl⟩
    · rintro ⟨⟨h1, h2⟩, h3⟩
      exact ⟨x.1, List.mem_filter.2 ⟨h1, by simpa using h2⟩, Prod.ext rfl h3.symm⟩
  have hpush : ∀ x ∈ ((g.arcsFrom (some s)).map (fun a => (a, w))).reverse, ∀ n p,
      SilentPath g n x.1.stop p → SilentPath g n s (x.1 :: p) := by
    intro x hx n p h
    have hm := (hst x).1 hx
    have := SilentPath.step x.1 p hm.1.1 (hm.1.2 ▸ hs) h
    rwa [hm.1.2] at this
  have hfst : (((g.arcsFrom (some s)).map (fun a => (a, w))).reverse).map Prod.fst
      = (g.arcsFrom (some s)).reverse := by
    rw [List.map_reverse, List.map_map]
    congr 1
    exact List.map_id _
  have hnd : ((((g.arcsFrom (some s)).map (fun a => (a, w))).reverse).map Prod.fst).Nodup := by
    rw [hfst, List.nodup_reverse]
    exact (List.Nodup.of_map _ hg.keys_nodup).sublist List.filter_sublist
  obtain ⟨ps, h1, h2, h3⟩ := nextLoop_unique g hg hu _ _ l hl
    (fun x hx => ((hst x).1 hx).1.1)
    (by
      intro x hx n p hp hn
      simp only [Option.toList, List.mem_singleton] at hn
      subst hn
      have := hu _ _ _ _ (hpush x hx _ p hp) (.nil hs)
      cases this)
    (by
      refine List.Pairwise.imp_of_mem ?_ (List.pairwise_map.1 hnd)
      intro x y hx hy hxy n p q hp hq
      have := hu _ _ _ _ (hpush x hx n p hp) (hpush y hy n q hq)
      exact hxy (List.cons.inj this).1)
    hnd
    (by intro x hx; simp [((hst x).1 hx).1.2])
  have hw : ∀ y ∈ ps, y.1.2 = w := fun y hy => ((hst _).1 ((h2 y.1 y.2).1 hy).1).2
  refine ⟨ps.map (fun y => (y.1.1, y.2)), ?_, ?_, ?_⟩
  · rw [List.nodup_map_iff_inj_on h1]
    intro y hy z hz hyz
    have e1 : y.1.1 = z.1.1 := (Prod.ext_iff.1 hyz).1
    have e2 : y.2 = z.2 := (Prod.ext_iff.1 hyz).2
    exact Prod.ext (Prod.ext e1 ((hw y hy).trans (hw z hz).symm)) e2
  · intro a q
    rw [List.mem_map]
    constructor
    · rintro ⟨y, hy, hya⟩
      cases hya
      obtain ⟨hm, e, he⟩ := (h2 y.1 y.2).1 hy
      exact ⟨e, by rwa [((hst _).1 hm).1.2] at he⟩
    · rintro ⟨e, he⟩
      have hb := EpsPath.end_eq g e _ a q he
      exact ⟨((a, w), q), (h2 _ _).2 ⟨(hst _).2 ⟨⟨hb.2.2.1, hb.2.1⟩, rfl⟩, e, by
        rw [hb.2.1]; exact he⟩, rfl⟩
  · rw [h3, List.map_map]
    apply List.map_congr_left
    intro y hy
    simp [hw y hy]

/-! ### The transition matrix -/

/-- Weight the compilation gives to a path: the weight of the first arc after the initial one is lost
and the weight of the last one counts twice. -/
def codeWeight [Mul F] [Zero F] : List (Arc F) → F
  | [] => 0
  | [a] => a.weight
  | a :: b :: q => compVal b a.weight q

theorem stateIndex_inj (g : Graph F) (i j : ℕ) (hi : Emits g i)
    (h : g.stateIndex i = g.stateIndex j) : i = j :=
  (List.idxOf_inj ((emits_mem g i).1 hi)).1 h

theorem transArc_unique [Field F] (g : Graph F) (hg : g.Inv) (hu : UniqueSilent g)
    (hc : Closed g) (e1 e2 : ℕ) (h1 : Emits g e1) (h2 : Emits g e2) (a : Arc F) (ha : a ∈ g.arcs)
    (t : ℕ → ℕ → F) : ∃ t', g.transArc t a = .ok t' ∧ ∃ ps : List (List (Arc F)), ps.Nodup
      ∧ (∀ p, p ∈ ps ↔ ∃ q, p = a :: q ∧ EpsPath g e2 e1 p)
      ∧ t' (g.stateIndex e1) (g.stateIndex e2)
          = t (g.stateIndex e1) (g.stateIndex e2) + (ps.map codeWeight).sum := by
  unfold transArc
  have hs1 := pdfOf_some g a.start (hc a ha).1
  have hs2 := pdfOf_some g a.stop (hc a ha).2
  cases hp1 : g.pdfOf a.start with
  | none => exact absurd hp1 hs1
  | some o1 =>
    cases hp2 : g.pdfOf a.stop with
    | none => exact absurd hp2 hs2
    | some o2 =>
      cases o1 with
      | none =>
        refine ⟨t, rfl, [], List.nodup_nil, ?_, by simp⟩
        intro p
        simp only [List.not_mem_nil, false_iff]
        rintro ⟨q, rfl, hp⟩
        have := (EpsPath.inv g e2 e1 a q hp).1
        exact emits_silent g hg e1 h1 (this ▸ (pdfOf_silent g hg _).1 hp1)
      | some k1 =>
        have hem1 : Emits g a.start := (pdfOf_emits g hg _).1 ⟨k1, hp1⟩
        cases o2 with
        | some k2 =>
          have hem2 : Emits g a.stop := (pdfOf_emits g hg _).1 ⟨k2, hp2⟩
          refine ⟨_, rfl, ?_⟩
          by_cases hcase : a.start = e1 ∧ a.stop = e2
          · obtain ⟨rfl, rfl⟩ := hcase
            refine ⟨[[a]], by simp, ?_, ?_⟩
            · intro p
              rw [List.mem_singleton]
              constructor
              · rintro rfl; exact ⟨[], rfl, .last a ha rfl hem2⟩
              · rintro ⟨q, rfl, hp⟩
                obtain ⟨_, _, ⟨h, _⟩ | ⟨h, _⟩⟩ := EpsPath.inv g _ _ a q hp
                · rw [h]
                · exact (emits_silent g hg _ hem2 h).elim
            · simp [accumProbs, codeWeight]
          · refine ⟨[], List.nodup_nil, ?_, ?_⟩
            · intro p
              simp only [List.not_mem_nil, false_iff]
              rintro ⟨q, rfl, hp⟩
              obtain ⟨h, _, ⟨_, h', _⟩ | ⟨h', _⟩⟩ := EpsPath.inv g _ _ a q hp
              · exact hcase ⟨h, h'⟩
              · exact (emits_silent g hg _ hem2 h').elim
            · simp only [List.map_nil, List.sum_nil, add_zero]
              by_cases hx : g.stateIndex e1 = g.stateIndex a.start
              · have hx' := stateIndex_inj g _ _ h1 hx
                have hy : g.stateIndex e2 ≠ g.stateIndex a.stop := fun hy =>
                  hcase ⟨hx'.symm, (stateIndex_inj g _ _ h2 hy).symm⟩
                simp [hx, accumProbs, hy]
              · simp [hx]
        | none =>
          have hsil : Silent g a.stop := (pdfOf_silent g hg _).1 hp2
          obtain ⟨l, hl⟩ := findNext_ok g hc (some a.stop) a.weight
          dsimp only
          rw [hl]
          refine ⟨_, rfl, ?_⟩
          by_cases hx : a.start = e1
          · subst hx
            obtain ⟨ps, n1, n2, n3⟩ := findNext_unique g hg hu a.stop a.weight hsil l hl
            refine ⟨(ps.filter (fun y => endOf y.1 y.2 = e2)).map (fun y => a :: y.1 :: y.2), ?_, ?_, ?_⟩
            · rw [List.nodup_map_iff_inj_on (n1.filter _)]
              intro y _ z _ hyz
              have := List.cons.inj (List.cons.inj hyz).2
              exact Prod.ext this.1 this.2
            · intro p
              rw [List.mem_map]
              constructor
              · rintro ⟨y, hy, rfl⟩
                have hy' := List.mem_filter.1 hy
                obtain ⟨e, he⟩ := (n2 y.1 y.2).1 hy'.1
                have hend := (EpsPath.end_eq g e _ _ _ he).1
                have : e = e2 := by rw [← hend]; simpa using hy'.2
                subst this
                exact ⟨_, rfl, .step a _ ha hsil he⟩
              · rintro ⟨q, rfl, hp⟩
                obtain ⟨_, _, ⟨_, h', h''⟩ | ⟨_, hq⟩⟩ := EpsPath.inv g _ _ a q hp
                · exact (emits_silent g hg _ h'' (h' ▸ hsil)).elim
                · cases q with
                  | nil => exact (EpsPath.not_nil g _ _ hq).elim
                  | cons b q =>
                    refine ⟨(b, q), List.mem_filter.2 ⟨(n2 b q).2 ⟨e2, hq⟩, ?_⟩, rfl⟩
                    simpa using (EpsPath.end_eq g e2 _ _ _ hq).1
            · simp only [if_true]
              rw [accumProbs_eq, n3]
              congr 1
              rw [List.filter_map, List.map_map, List.map_map]
              have hfil : ps.filter ((fun y => decide (g.stateIndex e2 = g.stateIndex y.1)) ∘
                  (fun y => (endOf y.1 y.2, compVal y.1 a.weight y.2)))
                  = ps.filter (fun y => endOf y.1 y.2 = e2) := by
                apply List.filter_congr
                intro y _
                simp only [Function.comp_apply, decide_eq_decide]
                constructor
                · intro h; exact (stateIndex_inj g _ _ h2 h).symm
                · intro h; rw [h]
              rw [hfil]
              rfl
          · refine ⟨[], List.nodup_nil, ?_, ?_⟩
            · intro p
              simp only [List.not_mem_nil, false_iff]
              rintro ⟨q, rfl, hp⟩
              exact hx (EpsPath.inv g _ _ a q hp).1
            · have : g.stateIndex e1 ≠ g.stateIndex a.start := fun h =>
                hx (stateIndex_inj g _ _ h1 h).symm
              simp [this]

theorem foldTrans_unique [Field F] (g : Graph F) (hg : g.Inv) (hu : UniqueSilent g)
    (hc : Closed g) (e1 e2 : ℕ) (h1 : Emits g e1) (h2 : Emits g e2) (as : List (Arc F))
    (hn : as.Nodup) (hs : ∀ a ∈ as, a ∈ g.arcs) (t : ℕ → ℕ → F) :
    ∃ t', as.foldlM (fun t a => g.transArc t a) t = .ok t' ∧ ∃ ps : List (List (Arc F)), ps.Nodup
      ∧ (∀ p, p ∈ ps ↔ ∃ a q, p = a :: q ∧ a ∈ as ∧ EpsPath g e2 e1 p)
      ∧ t' (g.stateIndex e1) (g.stateIndex e2)
          = t (g.stateIndex e1) (g.stateIndex e2) + (ps.map codeWeight).sum := by
  induction as generalizing t with
  | nil => exact ⟨t, rfl, [], List.nodup_nil, by simp, by simp⟩
  | cons a as ih =>
    rw [List.nodup_cons] at hn
    obtain ⟨t1, ht1, ps1, a1, a2, a3⟩ := transArc_unique g hg hu hc e1 e2 h1 h2 a
      (hs a List.mem_cons_self) t
    obtain ⟨t2, ht2, ps2, b1, b2, b3⟩ := ih hn.2 (fun b hb => hs b (List.mem_cons_of_mem _ hb)) t1
    refine ⟨t2, ?_, ps1 ++ ps2, ?_, ?_, ?_⟩
    · rw [List.foldlM_cons, ht1]
      exact ht2
    · rw [List.nodup_append]
      refine ⟨a1, b1, ?_⟩
      intro p hp p' hp' hpp
      subst hpp
      obtain ⟨q, hq, _⟩ := (a2 p).1 hp
      obtain ⟨b, q', hq', hb, _⟩ := (b2 p).1 hp'
      rw [hq] at hq'
      exact hn.1 ((List.cons.inj hq').1 ▸ hb)
    · intro p
      rw [List.mem_append, a2, b2]
      constructor
      · rintro (⟨q, hq, hp⟩ | ⟨b, q, hq, hb, hp⟩)
        · exact ⟨a, q, hq, List.mem_cons_self, hp⟩
        · exact ⟨b, q, hq, List.mem_cons_of_mem _ hb, hp⟩
      · rintro ⟨b, q, hq, hb, hp⟩
        rcases List.mem_cons.1 hb with rfl | hb
        · exact Or.inl ⟨q, hq, hp⟩
        · exact Or.inr ⟨b, q, hq, hb, hp⟩
    · rw [b3, a3, List.map_append, List.sum_append, add_assoc]

theorem transRaw_unique [Field F] (g : Graph F) (hg : g.Inv) (hu : UniqueSilent g)
    (hc : Closed g) (e1 e2 : ℕ) (h1 : Emits g e1) (h2 : Emits g e2) :
    ∃ t, g.transRaw = .ok t ∧ ∃ ps : List (List (Arc F)), ps.Nodup
      ∧ (∀ p, p ∈ ps ↔ EpsPath g e2 e1 p)
      ∧ t (g.stateIndex e1) (g.stateIndex e2) = (ps.map codeWeight).sum := by
  obtain ⟨t, ht, ps, a1, a2, a3⟩ := foldTrans_unique g hg hu hc e1 e2 h1 h2 g.arcs
    (List.Nodup.of_map _ hg.keys_nodup) (fun a h => h) (fun _ _ => 0)
  refine ⟨t, ht, ps, a1, ?_, by rw [a3, zero_add]⟩
  intro p
  rw [a2]
  constructor
  · rintro ⟨_, _, _, _, h⟩; exact h
  · intro h
    cases p with
    | nil => exact (EpsPath.not_nil g _ _ h).elim
    | cons a q => exact ⟨a, q, rfl, (EpsPath.inv g _ _ a q h).2.1, h⟩

theorem transRaw_ok [Field F] (g : Graph F) (hc : Closed g) : ∃ t, g.transRaw = .ok t := by
  unfold transRaw
  suffices h : ∀ (as : List (Arc F)) (t : ℕ → ℕ → F), (∀ a ∈ as, a ∈ g.arcs) →
      ∃ t', as.foldlM (fun t a => g.transArc t a) t = .ok t' from h _ _ (fun a h => h)
  intro as
  induction as with
  | nil => intro t _; exact ⟨t, rfl⟩
  | cons a as ih =>
    intro t hs
    have ha := hs a List.mem_cons_self
    have : ∃ t1, g.transArc t a = .ok t1 := by
      unfold transArc
      cases hp1 : g.pdfOf a.start with
      | none => exact absurd hp1 (pdfOf_some g a.start (hc a ha).1)
      | some o1 =>
        cases hp2 : g.pdfOf a.stop with
        | none => exact absurd hp2 (pdfOf_some g a.stop (hc a ha).2)
        | some o2 =>
          cases o1 with
          | none => exact ⟨_, rfl⟩
          | some k1 =>
            cases o2 with
            | some k2 => exact ⟨_, rfl⟩
            | none =>
              obtain ⟨l, hl⟩ := findNext_ok g hc (some a.stop) a.weight
              dsimp only
              rw [hl]
              exact ⟨_, rfl⟩
    obtain ⟨t1, ht1⟩ := this
    obtain ⟨t2, ht2⟩ := ih t1 (fun b hb => hs b (List.mem_cons_of_mem _ hb))
    exact ⟨t2, by rw [List.foldlM_cons, ht1]; exact ht2⟩

/-- The weight given to a path is the product of the weights when its second and its last arc have the
same weight (in particular when it has at most two arcs). -/
theorem compVal_eq [Field F] (b : Arc F) (w : F) (q : List (Arc F)) :
    compVal b w q = w * (q.map Arc.weight).prod * ((b :: q).getLast (by simp)).weight := by
  induction q generalizing b w with
  | nil => simp [compVal]
  | cons c q ih =>
    rw [compVal, ih]
    rw [List.getLast_cons (by simp : c :: q ≠ []), List.map_cons, List.prod_cons]
    ring

/-! ### Assembling -/

section

variable {F : Type} [Field F] [LinearOrder F] [IsStrictOrderedRing F]

omit [LinearOrder F] [IsStrictOrderedRing F] in
theorem sum_div (l : List ℕ) (v : ℕ → F) (c : F) :
    (l.map (fun k => v k / c)).sum = (l.map v).sum / c := by
  simp only [div_eq_mul_inv]
  rw [List.sum_map_mul_right]

theorem normalize_dist (g : Graph F) (hg : g.Inv) (s : ℕ)
    (hw : ∀ a ∈ g.arcs, 0 ≤ a.weight) (l : List (ℕ × F)) (hl : g.findNext (some s) 1 = .ok l)
    (v : ℕ → F)
    (hv : normalizeVec g.emitting.length (g.accumProbs (fun _ => 0) l) = some v) :
    IsDistribution g.emitting.length v := by
  have hs := findNext_sound g hg s 1 l hl
  have hpos : ∀ k, 0 ≤ g.accumProbs (fun _ => 0) l k := by
    intro k
    rw [accumProbs_eq, zero_add]
    apply List.sum_nonneg
    intro x hx
    obtain ⟨y, hy, rfl⟩ := List.mem_map.1 hx
    exact (hs y (List.mem_filter.1 hy).1).2.2.1 hw zero_le_one
  unfold normalizeVec at hv
  dsimp only at hv
  split at hv
  · cases hv
  · rename_i hne
    cases hv
    have htot : 0 ≤ ((List.range g.emitting.length).map (g.accumProbs (fun _ => 0) l)).sum := by
      apply List.sum_nonneg
      intro x hx
      obtain ⟨y, _, rfl⟩ := List.mem_map.1 hx
      exact hpos y
    refine ⟨fun k _ => div_nonneg (hpos k) htot, ?_⟩
    rw [sum_div, div_self hne]

theorem normalize_some (g : Graph F) (hg : g.Inv) (s e : ℕ) (p : List (Arc F))
    (hw : ∀ a ∈ g.arcs, 0 < a.weight) (l : List (ℕ × F)) (hl : g.findNext (some s) 1 = .ok l)
    (he : EpsPath g e s p) :
    ∃ v, normalizeVec g.emitting.length (g.accumProbs (fun _ => 0) l) = some v := by
  have hs := findNext_sound g hg s 1 l hl
  obtain ⟨y, hy, _⟩ := findNext_complete g hg s 1 l hl e p he
  have htot : 0 < ((List.range g.emitting.length).map (g.accumProbs (fun _ => 0) l)).sum := by
    rw [accumProbs_sum g l (fun y hy => (hs y hy).2.1)]
    have hpos : ∀ z ∈ l, 0 < z.2 := fun z hz => (hs z hz).2.2.2 hw zero_lt_one
    clear hs hl
    induction l with
    | nil => simp at hy
    | cons z l ih =>
      rw [List.map_cons, List.sum_cons]
      have h1 := hpos z List.mem_cons_self
      have h2 : 0 ≤ (l.map Prod.snd).sum := by
        apply List.sum_nonneg
        intro x hx
        obtain ⟨u, hu, rfl⟩ := List.mem_map.1 hx
        exact (hpos u (List.mem_cons_of_mem _ hu)).le
      linarith
  exact ⟨_, if_neg htot.ne'⟩

omit [Field F] [LinearOrder F] [IsStrictOrderedRing F] in
theorem reversed_inv (g : Graph F) (hg : g.Inv) : g.reversed.Inv := by
  refine ⟨hg.ids_nodup, hg.ids_lt, ?_⟩
  have : g.reversed.keys = g.keys.map Prod.swap := by
    simp only [keys, reversed, List.map_map]
    rfl
  rw [this]
  exact hg.keys_nodup.map Prod.swap_injective

omit [Field F] [LinearOrder F] [IsStrictOrderedRing F] in
theorem reversed_closed (g : Graph F) (hc : Closed g) : Closed g.reversed := by
  intro a ha
  obtain ⟨b, hb, rfl⟩ := List.mem_map.1 ha
  exact ⟨(hc b hb).2, (hc b hb).1⟩

omit [Field F] [LinearOrder F] [IsStrictOrderedRing F] in
theorem reversed_path (g : Graph F) (e s : ℕ) (p : List (Arc F)) (h : EpsPathTo g e s p) :
    ∃ p', EpsPath g.reversed e s p' := by
  induction h with
  | first a ha hae he =>
    exact ⟨_, .last (⟨a.stop, a.start, a.weight⟩ : Arc F) (List.mem_map.2 ⟨a, ha, rfl⟩) hae he⟩
  | step a p ha hs _ ih =>
    obtain ⟨p', hp'⟩ := ih
    exact ⟨_, .step (⟨a.stop, a.start, a.weight⟩ : Arc F) p' (List.mem_map.2 ⟨a, ha, rfl⟩) hs hp'⟩

omit [IsStrictOrderedRing F] in
theorem compile_ok (g : Graph F) (hc : Closed g) :
    ∃ c li lf t, g.compile = .ok c ∧ g.findNext g.startState 1 = .ok li
      ∧ g.reversed.findNext g.endState 1 = .ok lf ∧ g.transRaw = .ok t
      ∧ c.init = normalizeVec g.emitting.length (g.accumProbs (fun _ => 0) li)
      ∧ c.final = normalizeVec g.emitting.length (g.accumProbs (fun _ => 0) lf)
      ∧ c.trans = (fun i => normalizeRow g.emitting.length (t i) i) := by
  obtain ⟨li, hli⟩ := findNext_ok g hc g.startState (1 : F)
  obtain ⟨lf, hlf⟩ := findNext_ok g.reversed (reversed_closed g hc) g.endState (1 : F)
  obtain ⟨t, ht⟩ := transRaw_ok g hc
  refine ⟨⟨normalizeVec g.emitting.length (g.accumProbs (fun _ => 0) li),
      normalizeVec g.emitting.length (g.accumProbs (fun _ => 0) lf),
      fun i => normalizeRow g.emitting.length (t i) i, g.pdfMapping⟩,
    li, lf, t, ?_, hli, hlf, ht, rfl, rfl, rfl⟩
  simp only [compile, findPrevious, hli, hlf, ht]

omit [LinearOrder F] [IsStrictOrderedRing F] in
theorem sum_split (n dim : ℕ) (hd : dim < n) (row : ℕ → F) :
    ((List.range n).map row).sum
      = row dim + ((List.range n).map (fun k => if k = dim then 0 else row k)).sum := by
  have h : row = fun k => (if k = dim then row dim else 0) + (if k = dim then 0 else row k) := by
    funext k
    by_cases hk : k = dim <;> simp [hk]
  conv_lhs => rw [h]
  rw [List.sum_map_add]
  congr 1
  clear h
  induction n with
  | zero => omega
  | succ n ih =>
    rw [List.range_succ, List.map_append, List.sum_append]
    by_cases hm : dim = n
    · subst hm
      have : (List.map (fun k => if k = dim then row dim else 0) (List.range dim)).sum = 0 := by
        apply List.sum_eq_zero
        intro x hx
        obtain ⟨k, hk, rfl⟩ := List.mem_map.1 hx
        rw [if_neg]
        rw [List.mem_range] at hk; omega
      rw [this]; simp
    · rw [ih (by omega)]
      simp [Ne.symm hm]

end

theorem eps_perm (g h : Graph F) (hs : g.states = h.states)
    (ha : ∀ a, a ∈ g.arcs ↔ a ∈ h.arcs) (e s : ℕ) (p : List (Arc F)) (hp : EpsPath g e s p) :
    EpsPath h e s p := by
  induction hp with
  | last a hm hae he => exact .last a ((ha a).1 hm) hae (by unfold Emits; rw [← hs]; exact he)
  | step a p hm hsil _ ih => exact .step a p ((ha a).1 hm) (by unfold Silent; rw [← hs]; exact hsil) ih

end Graph
end Verif
