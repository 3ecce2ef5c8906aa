import Verif.Spec.GraphSupport
import Verif.Lemmas.GraphCompile

/-! # Helper lemmas: where the probabilities of a compiled graph are positive -/

namespace Verif
namespace Graph

open Spec

variable {F : Type} [Field F] [LinearOrder F] [IsStrictOrderedRing F]

theorem accum_le (g : Graph F) (v : ℕ → F) (l : List (ℕ × F)) (hl : ∀ y ∈ l, 0 ≤ y.2) (k : ℕ) :
    v k ≤ g.accumProbs v l k := by
  rw [accumProbs_eq]
  have : 0 ≤ ((l.filter (fun y => k = g.stateIndex y.1)).map Prod.snd).sum := by
    apply List.sum_nonneg
    intro x hx
    obtain ⟨y, hy, rfl⟩ := List.mem_map.1 hx
    exact hl y (List.mem_filter.1 hy).1
  linarith

theorem sum_pos_of_mem (l : List F) (h : ∀ x ∈ l, 0 < x) : 0 < l.sum ↔ l ≠ [] := by
  constructor
  · rintro h0 rfl
    simp at h0
  · intro h0
    exact List.sum_pos l h h0

theorem accum_lt (g : Graph F) (v : ℕ → F) (l : List (ℕ × F)) (hl : ∀ y ∈ l, 0 < y.2)
    (he : ∀ y ∈ l, Emits g y.1) (e : ℕ) :
    v (g.stateIndex e) < g.accumProbs v l (g.stateIndex e) ↔ ∃ y ∈ l, y.1 = e := by
  rw [accumProbs_eq]
  have h1 : (v (g.stateIndex e) < v (g.stateIndex e) +
      ((l.filter (fun y => g.stateIndex e = g.stateIndex y.1)).map Prod.snd).sum) ↔
      0 < ((l.filter (fun y => g.stateIndex e = g.stateIndex y.1)).map Prod.snd).sum := by
    constructor <;> intro h <;> linarith
  rw [h1, sum_pos_of_mem _ (by
    intro x hx
    obtain ⟨y, hy, rfl⟩ := List.mem_map.1 hx
    exact hl y (List.mem_filter.1 hy).1)]
  constructor
  · intro h
    obtain ⟨x, hx⟩ := List.exists_mem_of_ne_nil _ h
    obtain ⟨y, hy, rfl⟩ := List.mem_map.1 hx
    obtain ⟨hy1, hy2⟩ := List.mem_filter.1 hy
    exact ⟨y, hy1, stateIndex_inj g _ _ (he y hy1) (by simpa using (of_decide_eq_true hy2).symm)⟩
  · rintro ⟨y, hy, rfl⟩
    apply List.ne_nil_of_mem (a := y.2)
    exact List.mem_map.2 ⟨y, List.mem_filter.2 ⟨hy, by simp⟩, rfl⟩

/-! ### Mass of a search -/

theorem weight_le_one (g : Graph F) (hw : ∀ a ∈ g.arcs, 0 < a.weight) (ho : OutSums g) (a : Arc F) (ha : a ∈ g.arcs) :
    a.weight ≤ 1 := by
  rw [← ho a ha]
  apply List.single_le_sum
  · intro x hx
    obtain ⟨b, hb, rfl⟩ := List.mem_map.1 hx
    exact (hw b (List.mem_filter.1 hb).1).le
  · exact List.mem_map.2 ⟨a, List.mem_filter.2 ⟨ha, by simp⟩, rfl⟩

/-- An upper bound of what an entry of the stack yields. -/
def contrib (g : Graph F) (x : Arc F × F) : F :=
  if g.pdfOf x.1.stop = some none then if g.arcsFrom (some x.1.stop) = [] then 0 else x.2 else x.2 * x.1.weight

theorem contrib_nonneg (g : Graph F) (hw : ∀ a ∈ g.arcs, 0 < a.weight) (x : Arc F × F) (hx : x.1 ∈ g.arcs)
    (h : 0 ≤ x.2) : 0 ≤ contrib g x := by
  unfold contrib
  split_ifs
  · exact le_rfl
  · exact h
  · exact mul_nonneg h (hw _ hx).le

theorem contrib_le (g : Graph F) (hw : ∀ a ∈ g.arcs, 0 < a.weight) (ho : OutSums g) (x : Arc F × F) (hx : x.1 ∈ g.arcs)
    (h : 0 ≤ x.2) : contrib g x ≤ x.2 := by
  unfold contrib
  split_ifs
  · exact h
  · exact le_rfl
  · calc x.2 * x.1.weight ≤ x.2 * 1 := mul_le_mul_of_nonneg_left (weight_le_one g hw ho _ hx) h
      _ = x.2 := mul_one _

theorem out_sum_le (g : Graph F) (ho : OutSums g) (n : ℕ) :
    ((g.arcs.filter fun b => b.start = n).map Arc.weight).sum ≤ 1 := by
  by_cases h : ∃ a ∈ g.arcs, a.start = n
  · obtain ⟨a, ha, rfl⟩ := h
    exact (ho a ha).le
  · have : (g.arcs.filter fun b => b.start = n) = [] := by
      rw [List.filter_eq_nil_iff]
      intro a ha h2
      exact h ⟨a, ha, by simpa using h2⟩
    rw [this]
    simp

theorem pushed_mass (g : Graph F) (hw : ∀ a ∈ g.arcs, 0 < a.weight) (ho : OutSums g) (n : ℕ) (w : F) (h : 0 ≤ w) :
    ((g.pushed n w).map (contrib g)).sum ≤ w := by
  unfold pushed
  rw [List.map_reverse, List.sum_reverse, List.map_map]
  have h1 : ((g.arcsFrom (some n)).map (contrib g ∘ fun a => (a, a.weight * w))).sum ≤
      ((g.arcsFrom (some n)).map fun a => a.weight * w).sum := by
    apply List.sum_le_sum
    intro a ha
    have ha' : a ∈ g.arcs := (List.mem_filter.1 ha).1
    exact contrib_le g hw ho (a, a.weight * w) ha' (mul_nonneg (hw a ha').le h)
  refine h1.trans ?_
  rw [List.sum_map_mul_right]
  have := out_sum_le g ho n
  calc _ ≤ 1 * w := mul_le_mul_of_nonneg_right this h
    _ = w := one_mul w

theorem nextLoop_mass (g : Graph F) (hw : ∀ a ∈ g.arcs, 0 < a.weight) (ho : OutSums g)
    (stack : List (Arc F × F)) (visited : List ℕ) : ∀ l, g.nextLoop stack visited = .ok l →
    (∀ x ∈ stack, x.1 ∈ g.arcs ∧ 0 ≤ x.2) → (l.map Prod.snd).sum ≤ (stack.map (contrib g)).sum := by
  refine nextLoop_ind g (P := fun stack visited => ∀ l, g.nextLoop stack visited = .ok l →
    (∀ x ∈ stack, x.1 ∈ g.arcs ∧ 0 ≤ x.2) → (l.map Prod.snd).sum ≤ (stack.map (contrib g)).sum)
    ?_ ?_ ?_ ?_ ?_ stack visited
  · intro v l hl _
    rw [nextLoop_nil] at hl
    cases hl
    simp
  · intro a w rest v hp l hl
    rw [nextLoop_err g a w rest v hp] at hl
    cases hl
  · intro a w rest v p hp ih l hl hs
    rw [nextLoop_emit g a w rest v p hp] at hl
    cases hr : g.nextLoop rest v with
    | error e => rw [hr] at hl; cases hl
    | ok l' =>
      rw [hr] at hl
      cases hl
      have := ih l' hr fun x hx => hs x (List.mem_cons_of_mem _ hx)
      rw [List.map_cons, List.sum_cons, List.map_cons, List.sum_cons]
      have hc : contrib g (a, w) = w * a.weight := by
        unfold contrib
        dsimp only
        rw [hp, if_neg (by simp)]
      rw [hc]
      dsimp only
      linarith
  · intro a w rest v hp hv ih l hl hs
    rw [nextLoop_new g a w rest v hp hv] at hl
    have h0 := hs (a, w) List.mem_cons_self
    have := ih l hl (by
      intro x hx
      rcases List.mem_append.1 hx with hx | hx
      · obtain ⟨⟨h1, _⟩, h2⟩ := (mem_pushed g _ _ x).1 hx
        exact ⟨h1, by rw [h2]; exact mul_nonneg (hw _ h1).le h0.2⟩
      · exact hs x (List.mem_cons_of_mem _ hx))
    rw [List.map_append, List.sum_append] at this
    rw [List.map_cons, List.sum_cons]
    by_cases hn : g.arcsFrom (some a.stop) = []
    · have hz : g.pushed a.stop w = [] := by
        unfold pushed
        rw [hn]
        rfl
      have h1 := contrib_nonneg g hw (a, w) h0.1 h0.2
      rw [hz, List.map_nil, List.sum_nil] at this
      linarith
    · have hc : contrib g (a, w) = w := by
        unfold contrib
        dsimp only
        rw [hp, if_pos rfl, if_neg hn]
      have := pushed_mass g hw ho a.stop w h0.2
      rw [hc]
      linarith
  · intro a w rest v hp hv ih l hl hs
    rw [nextLoop_old g a w rest v hp hv] at hl
    have h0 := hs (a, w) List.mem_cons_self
    have := ih l hl fun x hx => hs x (List.mem_cons_of_mem _ hx)
    rw [List.map_cons, List.sum_cons]
    have := contrib_nonneg g hw (a, w) h0.1 h0.2
    linarith

theorem not_leads (g : Graph F) (hg : g.Inv) (hc : Closed g) (b : Arc F) (hb : b ∈ g.arcs) (h : ¬ LeadsOn g b)
    (w : F) : contrib g (b, w) = 0 := by
  have hs : g.pdfOf b.stop = some none := by
    cases hp : g.pdfOf b.stop with
    | none => exact absurd hp (pdfOf_some g b.stop (hc b hb).2)
    | some o =>
      cases o with
      | none => rfl
      | some k => exact (h (Or.inl ((pdfOf_emits g hg _).1 ⟨k, hp⟩))).elim
  have hn : g.arcsFrom (some b.stop) = [] := by
    unfold arcsFrom
    rw [List.filter_eq_nil_iff]
    intro d hd h2
    exact h (Or.inr ⟨d, hd, by simpa using h2⟩)
  unfold contrib
  rw [if_pos hs, if_pos hn]

theorem one_way (g : Graph F) (hg : g.Inv) (hc : Closed g) (hw : ∀ a ∈ g.arcs, 0 < a.weight) (ho : OutSums g) (w : F)
    (h0 : 0 < w) (l : List (Arc F)) (hn : l.Nodup) (hl : ∀ b ∈ l, b ∈ g.arcs)
    (h : ∀ b ∈ l, ∀ c ∈ l, LeadsOn g b → LeadsOn g c → b = c) :
    (l.map (contrib g ∘ fun b => (b, w))).sum ≤ w := by
  induction l with
  | nil => simpa using h0.le
  | cons b l ih =>
    rw [List.nodup_cons] at hn
    rw [List.map_cons, List.sum_cons, Function.comp_apply]
    by_cases hb : LeadsOn g b
    · have hz : (l.map (contrib g ∘ fun b => (b, w))).sum = 0 := by
        apply List.sum_eq_zero
        intro x hx
        obtain ⟨c, hc', rfl⟩ := List.mem_map.1 hx
        refine not_leads g hg hc c (hl c (List.mem_cons_of_mem _ hc')) ?_ w
        intro hlc
        have := h b List.mem_cons_self c (List.mem_cons_of_mem _ hc') hb hlc
        subst this
        exact hn.1 hc'
      have := contrib_le g hw ho (b, w) (hl b List.mem_cons_self) h0.le
      rw [hz, add_zero]
      exact this
    · rw [not_leads g hg hc b (hl b List.mem_cons_self) hb w, zero_add]
      exact ih hn.2 (fun c hc' => hl c (List.mem_cons_of_mem _ hc')) fun c hc' d hd =>
        h c (List.mem_cons_of_mem _ hc') d (List.mem_cons_of_mem _ hd)

/-! ### Transitions -/

/-- What an arc of an emitting state adds to the row of that state. -/
theorem transArc_adds (g : Graph F) (hg : g.Inv) (hc : Closed g) (hw : ∀ a ∈ g.arcs, 0 < a.weight) (a : Arc F)
    (ha : a ∈ g.arcs) (he : Emits g a.start) :
    ∃ l : List (ℕ × F), (∀ t, ∃ t', g.transArc t a = .ok t' ∧
        ∀ i, t' i = if i = g.stateIndex a.start then g.accumProbs (t i) l else t i) ∧
      (∀ y ∈ l, 0 < y.2 ∧ Emits g y.1 ∧ ∃ q, EpsPath g y.1 a.start (a :: q)) ∧
      (∀ e q, EpsPath g e a.start (a :: q) → ∃ y ∈ l, y.1 = e) ∧
      (OutSums g → Direct g → (l.map Prod.snd).sum ≤ a.weight) := by
  obtain ⟨k1, hp1⟩ := (pdfOf_emits g hg _).2 he
  cases hp2 : g.pdfOf a.stop with
  | none => exact absurd hp2 (pdfOf_some g a.stop (hc a ha).2)
  | some o2 =>
    cases o2 with
    | some k2 =>
      have hem2 : Emits g a.stop := (pdfOf_emits g hg _).1 ⟨k2, hp2⟩
      refine ⟨[(a.stop, a.weight)], ?_, ?_, ?_, ?_⟩
      · intro t
        refine ⟨_, by unfold transArc; rw [hp1, hp2], fun i => ?_⟩
        rfl
      · intro y hy
        rw [List.mem_singleton] at hy
        subst hy
        exact ⟨hw a ha, hem2, [], .last a ha rfl hem2⟩
      · intro e q h
        obtain ⟨_, _, ⟨_, h', _⟩ | ⟨h', _⟩⟩ := EpsPath.inv g _ _ a q h
        · exact ⟨_, List.mem_singleton_self _, h'⟩
        · exact (emits_silent g hg _ hem2 h').elim
      · intro _ _
        simp
    | none =>
      have hsil : Silent g a.stop := (pdfOf_silent g hg _).1 hp2
      obtain ⟨l, hl⟩ := findNext_ok g hc (some a.stop) a.weight
      have hs := findNext_sound g hg a.stop a.weight l hl
      refine ⟨l, ?_, ?_, ?_, ?_⟩
      · intro t
        refine ⟨_, by unfold transArc; rw [hp1, hp2]; dsimp only; rw [hl], fun i => ?_⟩
        rfl
      · intro y hy
        obtain ⟨⟨p, h1⟩, h2, _, h4⟩ := hs y hy
        exact ⟨h4 hw (hw a ha), h2, p, .step a p ha hsil h1⟩
      · intro e q h
        obtain ⟨_, _, ⟨_, h', h''⟩ | ⟨_, h'⟩⟩ := EpsPath.inv g _ _ a q h
        · exact (emits_silent g hg _ h'' (h' ▸ hsil)).elim
        · exact findNext_complete g hg a.stop a.weight l hl e q h'
      · intro ho hd
        have hst : ∀ x ∈ ((g.arcsFrom (some a.stop)).map (fun b => (b, a.weight))).reverse,
            (x.1 ∈ g.arcs ∧ x.1.start = a.stop) ∧ x.2 = a.weight := by
          intro x hx
          rw [List.mem_reverse] at hx
          obtain ⟨b, hb, rfl⟩ := List.mem_map.1 hx
          obtain ⟨h1, h2⟩ := List.mem_filter.1 hb
          exact ⟨⟨h1, by simpa using h2⟩, rfl⟩
        have hm := nextLoop_mass g hw ho _ _ l hl fun x hx =>
          ⟨(hst x hx).1.1, by rw [(hst x hx).2]; exact (hw a ha).le⟩
        refine hm.trans ?_
        rw [List.map_reverse, List.sum_reverse, List.map_map]
        rcases hd a ha he hsil with h | h
        · have : (g.arcsFrom (some a.stop)).map (contrib g ∘ fun b => (b, a.weight)) =
              (g.arcsFrom (some a.stop)).map fun b => b.weight * a.weight := by
            refine List.map_congr_left fun b hb => ?_
            obtain ⟨h1, h2⟩ := List.mem_filter.1 hb
            obtain ⟨p, hp⟩ := (pdfOf_emits g hg _).2 (h b h1 (by simpa using h2))
            show contrib g (b, a.weight) = _
            unfold contrib
            dsimp only
            rw [hp, if_neg (by simp), mul_comm]
          rw [this, List.sum_map_mul_right]
          have := out_sum_le g ho a.stop
          calc _ ≤ 1 * a.weight := mul_le_mul_of_nonneg_right this (hw a ha).le
            _ = a.weight := one_mul _
        · have hn : (g.arcsFrom (some a.stop)).Nodup := (List.Nodup.of_map _ hg.keys_nodup).filter _
          have hin : ∀ b ∈ g.arcsFrom (some a.stop), b ∈ g.arcs ∧ b.start = a.stop := fun b hb => by
            obtain ⟨b1, b2⟩ := List.mem_filter.1 hb
            exact ⟨b1, by simpa using b2⟩
          exact one_way g hg hc hw ho a.weight (hw a ha) _ hn (fun b hb => (hin b hb).1) fun b hb c hc' =>
            h b (hin b hb).1 c (hin c hc').1 (hin b hb).2 (hin c hc').2

theorem transArc_skips (g : Graph F) (hg : g.Inv) (hc : Closed g) (a : Arc F) (ha : a ∈ g.arcs)
    (he : ¬ Emits g a.start) (t : ℕ → ℕ → F) : g.transArc t a = .ok t := by
  cases hp2 : g.pdfOf a.stop with
  | none => exact absurd hp2 (pdfOf_some g a.stop (hc a ha).2)
  | some o2 =>
    cases hp1 : g.pdfOf a.start with
    | none => exact absurd hp1 (pdfOf_some g a.start (hc a ha).1)
    | some o1 =>
      cases o1 with
      | some k => exact absurd ((pdfOf_emits g hg _).1 ⟨k, hp1⟩) he
      | none => unfold transArc; rw [hp1, hp2]

theorem accum_sum (g : Graph F) (v : ℕ → F) (l : List (ℕ × F)) (hl : ∀ y ∈ l, Emits g y.1) :
    ((List.range g.emitting.length).map (g.accumProbs v l)).sum =
      ((List.range g.emitting.length).map v).sum + (l.map Prod.snd).sum := by
  rw [← accumProbs_sum g l hl, ← List.sum_map_add]
  congr 1
  refine List.map_congr_left fun k _ => ?_
  rw [accumProbs_eq, accumProbs_eq, zero_add]

theorem foldTrans_support (g : Graph F) (hg : g.Inv) (hc : Closed g) (hw : ∀ a ∈ g.arcs, 0 < a.weight)
    (as : List (Arc F)) (t t' : ℕ → ℕ → F) (hs : ∀ a ∈ as, a ∈ g.arcs)
    (h : as.foldlM (fun t a => g.transArc t a) t = .ok t') :
    (∀ i k, t i k ≤ t' i k) ∧
    (∀ e1 e2, Emits g e1 → (t (g.stateIndex e1) (g.stateIndex e2) < t' (g.stateIndex e1) (g.stateIndex e2) ↔
      ∃ a ∈ as, ∃ q, EpsPath g e2 e1 (a :: q))) ∧
    (OutSums g → Direct g → ∀ e1, Emits g e1 →
      ((List.range g.emitting.length).map (t' (g.stateIndex e1))).sum ≤
        ((List.range g.emitting.length).map (t (g.stateIndex e1))).sum +
          ((as.filter fun a => a.start = e1).map Arc.weight).sum) := by
  induction as generalizing t with
  | nil =>
    cases h
    refine ⟨fun _ _ => le_rfl, ?_, ?_⟩
    · intro e1 e2 _
      simp
    · intro _ _ e1 _
      simp
  | cons a as ih =>
    have ha := hs a List.mem_cons_self
    have hs' : ∀ b ∈ as, b ∈ g.arcs := fun b hb => hs b (List.mem_cons_of_mem _ hb)
    by_cases he : Emits g a.start
    · obtain ⟨l, h1, h2, h3, h4⟩ := transArc_adds g hg hc hw a ha he
      obtain ⟨t1, ht1, hrow⟩ := h1 t
      rw [List.foldlM_cons, ht1] at h
      obtain ⟨i1, i2, i3⟩ := ih t1 hs' h
      have hle : ∀ i k, t i k ≤ t1 i k := by
        intro i k
        rw [hrow]
        split_ifs
        · exact accum_le g _ l (fun y hy => (h2 y hy).1.le) k
        · exact le_rfl
      refine ⟨fun i k => (hle i k).trans (i1 i k), ?_, ?_⟩
      · intro e1 e2 hm
        constructor
        · intro hlt
          by_cases hx : t1 (g.stateIndex e1) (g.stateIndex e2) < t' (g.stateIndex e1) (g.stateIndex e2)
          · obtain ⟨b, hb, q, hq⟩ := (i2 e1 e2 hm).1 hx
            exact ⟨b, List.mem_cons_of_mem _ hb, q, hq⟩
          · have hx' : t (g.stateIndex e1) (g.stateIndex e2) < t1 (g.stateIndex e1) (g.stateIndex e2) :=
              lt_of_lt_of_le hlt (not_lt.1 hx)
            rw [hrow] at hx'
            split_ifs at hx' with hi
            · have hae := stateIndex_inj g _ _ hm hi
              subst hae
              obtain ⟨y, hy, rfl⟩ := (accum_lt g _ l (fun y hy => (h2 y hy).1) (fun y hy => (h2 y hy).2.1) e2).1 hx'
              obtain ⟨q, hq⟩ := (h2 y hy).2.2
              exact ⟨a, List.mem_cons_self, q, hq⟩
            · exact absurd hx' (lt_irrefl _)
        · rintro ⟨b, hb, q, hq⟩
          rcases List.mem_cons.1 hb with rfl | hb
          · have hst := (EpsPath.inv g _ _ b q hq).1
            subst hst
            refine lt_of_lt_of_le ?_ (i1 _ _)
            rw [hrow, if_pos rfl]
            exact (accum_lt g _ l (fun y hy => (h2 y hy).1) (fun y hy => (h2 y hy).2.1) e2).2 (h3 e2 q hq)
          · exact lt_of_le_of_lt (hle _ _) ((i2 e1 e2 hm).2 ⟨b, hb, q, hq⟩)
      · intro ho hd e1 hm
        have := i3 ho hd e1 hm
        refine this.trans ?_
        by_cases hx : a.start = e1
        · subst hx
          rw [List.filter_cons_of_pos (by simp), List.map_cons, List.sum_cons, hrow, if_pos rfl,
            accum_sum g _ l (fun y hy => (h2 y hy).2.1)]
          have := h4 ho hd
          linarith
        · rw [List.filter_cons_of_neg (by simpa using hx), hrow,
            if_neg fun hi => hx (stateIndex_inj g _ _ hm hi).symm]
    · rw [List.foldlM_cons, transArc_skips g hg hc a ha he] at h
      obtain ⟨i1, i2, i3⟩ := ih t hs' h
      have hne : ∀ e1, Emits g e1 → a.start ≠ e1 := by
        rintro e1 hm rfl
        exact he hm
      refine ⟨i1, ?_, ?_⟩
      · intro e1 e2 hm
        rw [i2 e1 e2 hm]
        constructor
        · rintro ⟨b, hb, q, hq⟩
          exact ⟨b, List.mem_cons_of_mem _ hb, q, hq⟩
        · rintro ⟨b, hb, q, hq⟩
          rcases List.mem_cons.1 hb with rfl | hb
          · exact absurd (EpsPath.inv g _ _ b q hq).1 (hne e1 hm)
          · exact ⟨b, hb, q, hq⟩
      · intro ho hd e1 hm
        rw [List.filter_cons_of_neg (by simpa using hne e1 hm)]
        exact i3 ho hd e1 hm

theorem transRaw_support (g : Graph F) (hg : g.Inv) (hc : Closed g) (hw : ∀ a ∈ g.arcs, 0 < a.weight)
    (t : ℕ → ℕ → F) (h : g.transRaw = .ok t) :
    (∀ i k, 0 ≤ t i k) ∧
    (∀ e1 e2, Emits g e1 → (0 < t (g.stateIndex e1) (g.stateIndex e2) ↔ ∃ p, EpsPath g e2 e1 p)) ∧
    (OutSums g → Direct g → ∀ e1, Emits g e1 →
      ((List.range g.emitting.length).map (t (g.stateIndex e1))).sum ≤ 1) := by
  obtain ⟨h1, h2, h3⟩ := foldTrans_support g hg hc hw g.arcs (fun _ _ => 0) t (fun _ h => h) h
  refine ⟨h1, ?_, ?_⟩
  · intro e1 e2 he
    rw [h2 e1 e2 he]
    constructor
    · rintro ⟨a, _, q, hq⟩
      exact ⟨_, hq⟩
    · rintro ⟨p, hp⟩
      cases p with
      | nil => exact (EpsPath.not_nil g _ _ hp).elim
      | cons a q => exact ⟨a, (EpsPath.inv g _ _ a q hp).2.1, q, hp⟩
  · intro ho hd e1 he
    have := h3 ho hd e1 he
    have hz : ((List.range g.emitting.length).map fun _ => (0 : F)).sum = 0 :=
      List.sum_eq_zero fun x hx => by
        obtain ⟨_, _, rfl⟩ := List.mem_map.1 hx
        rfl
    rw [hz, zero_add] at this
    exact this.trans (out_sum_le g ho e1)

/-! ### Initial and final probabilities -/

theorem vec_support (g : Graph F) (hg : g.Inv) (s : ℕ) (hw : ∀ a ∈ g.arcs, 0 < a.weight) (l : List (ℕ × F))
    (hl : g.findNext (some s) 1 = .ok l) (v : ℕ → F)
    (hv : normalizeVec g.emitting.length (g.accumProbs (fun _ => 0) l) = some v) (e : ℕ) :
    0 < v (g.stateIndex e) ↔ ∃ p, EpsPath g e s p := by
  have hs := findNext_sound g hg s 1 l hl
  have h0 : 0 < g.accumProbs (fun _ => 0) l (g.stateIndex e) ↔ ∃ p, EpsPath g e s p := by
    have := accum_lt g (fun _ => 0) l (fun y hy => (hs y hy).2.2.2 hw one_pos) (fun y hy => (hs y hy).2.1) e
    refine this.trans ⟨?_, ?_⟩
    · rintro ⟨y, hy, rfl⟩
      exact (hs y hy).1
    · rintro ⟨p, hp⟩
      exact findNext_complete g hg s 1 l hl e p hp
  rw [← h0]
  unfold normalizeVec at hv
  dsimp only at hv
  split at hv
  · cases hv
  · rename_i hne
    cases hv
    have htot : 0 < ((List.range g.emitting.length).map (g.accumProbs (fun _ => 0) l)).sum := by
      refine lt_of_le_of_ne ?_ (Ne.symm hne)
      apply List.sum_nonneg
      intro x hx
      obtain ⟨y, _, rfl⟩ := List.mem_map.1 hx
      exact accum_le g (fun _ => 0) l (fun y hy => ((hs y hy).2.2.2 hw one_pos).le) y
    exact div_pos_iff_of_pos_right htot

omit [Field F] [LinearOrder F] [IsStrictOrderedRing F] in
theorem reversed_path_iff (g : Graph F) (e s : ℕ) :
    (∃ p, EpsPath g.reversed e s p) ↔ ∃ p, EpsPathTo g e s p := by
  constructor
  · rintro ⟨p, hp⟩
    induction hp with
    | last a ha hae he =>
      obtain ⟨b, hb, rfl⟩ := List.mem_map.1 ha
      exact ⟨_, .first b hb hae he⟩
    | step a p ha hs _ ih =>
      obtain ⟨b, hb, rfl⟩ := List.mem_map.1 ha
      obtain ⟨p', hp'⟩ := ih
      exact ⟨_, .step b p' hb hs hp'⟩
  · rintro ⟨p, hp⟩
    exact reversed_path g e s p hp

/-! ### Rows after the normalisation -/

theorem row_support (n dim : ℕ) (row : ℕ → F) (hd : dim < n) (h0 : ∀ k, 0 ≤ row k)
    (h1 : ((List.range n).map row).sum ≤ 1) (k : ℕ) : 0 < normalizeRow n row dim k ↔ 0 < row k := by
  unfold normalizeRow
  split_ifs with h
  · dsimp only
    split_ifs with hk
    · rw [hk]
    · have : 0 < (((List.range n).map row).sum - row dim) / (1 - row dim) := by
        refine div_pos h.2 ?_
        linarith [h.2]
      exact div_pos_iff_of_pos_right this
  · exact Iff.rfl

theorem row_nonneg (n dim : ℕ) (row : ℕ → F) (hd : dim < n) (h0 : ∀ k, 0 ≤ row k)
    (h1 : ((List.range n).map row).sum ≤ 1) (k : ℕ) : 0 ≤ normalizeRow n row dim k := by
  rcases (h0 k).lt_or_eq with h | h
  · exact ((row_support n dim row hd h0 h1 k).2 h).le
  · unfold normalizeRow
    split_ifs
    · dsimp only
      split_ifs
      · exact h0 dim
      · rw [← h, zero_div]
    · exact h0 k

/-! ### Paths -/

omit [Field F] [LinearOrder F] [IsStrictOrderedRing F] in
theorem pdf_index (g : Graph F) (hg : g.Inv) (i p : ℕ) (h : (i, some p) ∈ g.states) :
    g.pdfMapping.getD (g.stateIndex i) 0 = p := by
  have hn := hg.ids_nodup
  unfold ids at hn
  unfold pdfMapping stateIndex emitting
  revert h hn
  induction g.states with
  | nil => intro h; simp at h
  | cons x l ih =>
    intro h hn
    rw [List.map_cons, List.nodup_cons] at hn
    obtain ⟨j, o⟩ := x
    cases o with
    | none =>
      rw [List.filterMap_cons_none (by rfl), List.filterMap_cons_none (by rfl)]
      refine ih ?_ hn.2
      simpa using h
    | some q =>
      rw [List.filterMap_cons_some (b := q) (by rfl), List.filterMap_cons_some (b := j) (by rfl)]
      rcases List.mem_cons.1 h with h | h
      · cases h
        simp
      · have hne : j ≠ i := by
          rintro rfl
          exact hn.1 (List.mem_map.2 ⟨_, h, rfl⟩)
        rw [List.idxOf_cons_ne _ hne, List.getD_cons_succ]
        exact ih h hn.2

omit [Field F] [LinearOrder F] [IsStrictOrderedRing F] in
theorem emitting_nodup (g : Graph F) (hg : g.Inv) : g.emitting.Nodup := by
  have hn := hg.ids_nodup
  unfold ids at hn
  unfold emitting
  have : (g.states.filterMap fun s => s.2.map fun _ => s.1) =
      (g.states.filter fun s => s.2.isSome).map Prod.fst := by
    induction g.states with
    | nil => rfl
    | cons x l ih =>
      obtain ⟨j, o⟩ := x
      cases o with
      | none => rw [List.filterMap_cons_none (by rfl), List.filter_cons_of_neg (by simp), ih]
      | some q =>
        rw [List.filterMap_cons_some (b := j) (by rfl), List.filter_cons_of_pos (by simp), List.map_cons, ih]
  rw [this]
  exact hn.sublist (List.filter_sublist.map _)

omit [Field F] [LinearOrder F] [IsStrictOrderedRing F] in
theorem mapping_length (g : Graph F) : g.pdfMapping.length = g.emitting.length := by
  unfold pdfMapping emitting
  induction g.states with
  | nil => rfl
  | cons x l ih =>
    obtain ⟨j, o⟩ := x
    cases o with
    | none => rw [List.filterMap_cons_none (by rfl), List.filterMap_cons_none (by rfl)]; exact ih
    | some q =>
      rw [List.filterMap_cons_some (b := q) (by rfl), List.filterMap_cons_some (b := j) (by rfl), List.length_cons,
        List.length_cons, ih]

omit [Field F] [LinearOrder F] [IsStrictOrderedRing F] in
theorem silent_or_emits (g : Graph F) (i : ℕ) (h : i ∈ g.ids) : Silent g i ∨ Emits g i := by
  obtain ⟨⟨j, o⟩, hx, rfl⟩ := List.mem_map.1 h
  cases o with
  | none => exact Or.inl hx
  | some p => exact Or.inr ⟨p, hx⟩

omit [Field F] [LinearOrder F] [IsStrictOrderedRing F] in
theorem lab_silent (g : Graph F) (hg : g.Inv) (i : ℕ) (w : List ℕ) (hs : Silent g i) : emitLab g i w ↔ w = [] := by
  constructor
  · rintro (⟨_, h⟩ | ⟨p, h, _⟩)
    · exact h
    · exact (emits_silent g hg i ⟨p, h⟩ hs).elim
  · rintro rfl
    exact Or.inl ⟨hs, rfl⟩

omit [Field F] [LinearOrder F] [IsStrictOrderedRing F] in
theorem lab_emits (g : Graph F) (hg : g.Inv) (i : ℕ) (w : List ℕ) (he : Emits g i) :
    emitLab g i w ↔ w = [g.pdfMapping.getD (g.stateIndex i) 0] := by
  constructor
  · rintro (⟨h, _⟩ | ⟨p, h, rfl⟩)
    · exact (emits_silent g hg i he h).elim
    · rw [pdf_index g hg i p h]
  · rintro rfl
    obtain ⟨p, hp⟩ := he
    exact Or.inr ⟨p, hp, by rw [pdf_index g hg i p hp]⟩

omit [Field F] [LinearOrder F] [IsStrictOrderedRing F] in
theorem lab_of (g : Graph F) (i : ℕ) (o : Option ℕ) (h : g.pdfOf i = some o) : emitLab g i o.toList := by
  cases o with
  | none => exact Or.inl ⟨lookup_mem _ _ _ h, rfl⟩
  | some p => exact Or.inr ⟨p, lookup_mem _ _ _ h, rfl⟩

omit [Field F] [LinearOrder F] [IsStrictOrderedRing F] in
theorem reads_of_eps (g : Graph F) (e e1 s : ℕ) (p : List (Arc F)) (w : List ℕ) (h : EpsPath g e1 s p)
    (hs : Silent g s) (hr : Reads g (emitLab g) e e1 w) : Reads g (emitLab g) e s w := by
  induction h with
  | last a ha hae he => exact .step a [] w ha (Or.inl ⟨hs, rfl⟩) (hae ▸ hr)
  | step a p ha h1 _ ih => exact .step a [] w ha (Or.inl ⟨hs, rfl⟩) (ih h1)

omit [Field F] [LinearOrder F] [IsStrictOrderedRing F] in
theorem eps_of_reads (g : Graph F) (hg : g.Inv) (hc : Closed g) (e s : ℕ) (w : List ℕ)
    (h : Reads g (emitLab g) e s w) (hw : w ≠ []) (hs : Silent g s) :
    ∃ e1 p, EpsPath g e1 s p ∧ Reads g (emitLab g) e e1 w := by
  induction h with
  | stop w hl => exact absurd ((lab_silent g hg _ w hs).1 hl) hw
  | step a w w' ha hl hr ih =>
    rw [lab_silent g hg _ w hs] at hl
    subst hl
    rcases silent_or_emits g a.stop (hc a ha).2 with h | h
    · obtain ⟨e1, p, h1, h2⟩ := ih (by simpa using hw) h
      exact ⟨e1, a :: p, .step a p ha h h1, h2⟩
    · exact ⟨a.stop, [a], .last a ha rfl h, hr⟩

omit [Field F] [LinearOrder F] [IsStrictOrderedRing F] in
theorem epsTo_of_reads (g : Graph F) (hg : g.Inv) (e e1 s : ℕ) (w : List ℕ) (h : Reads g (emitLab g) e s w)
    (hw : w = []) (p : List (Arc F)) (hp : EpsPathTo g e1 s p) : ∃ p, EpsPathTo g e1 e p := by
  induction h generalizing p with
  | stop w hl => exact ⟨p, hp⟩
  | step a w w' ha hl hr ih =>
    obtain ⟨rfl, rfl⟩ := List.append_eq_nil_iff.1 hw
    rcases hl with ⟨hl, _⟩ | ⟨_, _, hl⟩
    · exact ih rfl (a :: p) (.step a p ha hl hp)
    · simp at hl

omit [Field F] [LinearOrder F] [IsStrictOrderedRing F] in
theorem reads_of_epsTo (g : Graph F) (hg : g.Inv) (e e1 s : ℕ) (p : List (Arc F)) (h : EpsPathTo g e1 s p)
    (hr : Reads g (emitLab g) e s []) :
    Reads g (emitLab g) e e1 [g.pdfMapping.getD (g.stateIndex e1) 0] := by
  induction h with
  | first a ha hae he =>
    subst hae
    exact .step a _ [] ha ((lab_emits g hg _ _ he).2 rfl) hr
  | step a p ha hs _ ih => exact ih (.step a [] [] ha (Or.inl ⟨hs, rfl⟩) hr)

/-- The emitting states of a path, in order. -/
def Goal (g : Graph F) (e : ℕ) (es : List ℕ) : Prop :=
  (∀ x ∈ es, Emits g x) ∧ es.IsChain (fun a b => ∃ p, EpsPath g b a p) ∧
    ∃ b, es.getLast? = some b ∧ ∃ p, EpsPathTo g b e p

omit [Field F] [LinearOrder F] [IsStrictOrderedRing F] in
theorem reads_goal (g : Graph F) (hg : g.Inv) (hc : Closed g) (e : ℕ) (hse : Silent g e) (n : ℕ) :
    ∀ (w : List ℕ) (e1 : ℕ), w.length ≤ n → Emits g e1 → Reads g (emitLab g) e e1 w →
      ∃ es, Goal g e (e1 :: es) ∧ w = (e1 :: es).map fun x => g.pdfMapping.getD (g.stateIndex x) 0 := by
  induction n with
  | zero =>
    intro w e1 hl he h
    cases h with
    | stop w h => exact (emits_silent g hg _ he hse).elim
    | step a w w' ha h hr =>
      rw [lab_emits g hg _ _ he] at h
      subst h
      simp at hl
  | succ n ih =>
    intro w e1 hl he h
    cases h with
    | stop w h => exact (emits_silent g hg _ he hse).elim
    | step a w w' ha h hr =>
      rw [lab_emits g hg _ _ he] at h
      subst h
      have hl' : w'.length ≤ n := by simpa using hl
      by_cases hw : w' = []
      · obtain ⟨p, hp⟩ := epsTo_of_reads g hg e a.start a.stop w' hr hw [a] (.first a ha rfl he)
        refine ⟨[], ⟨by simpa using he, List.isChain_singleton _, a.start, rfl, p, hp⟩, by rw [hw]; rfl⟩
      · have key : ∃ e2 p, Emits g e2 ∧ EpsPath g e2 a.start p ∧ Reads g (emitLab g) e e2 w' := by
          rcases silent_or_emits g a.stop (hc a ha).2 with h | h
          · obtain ⟨e2, p, h1, h2⟩ := eps_of_reads g hg hc e a.stop w' hr hw h
            refine ⟨e2, a :: p, ?_, .step a p ha h h1, h2⟩
            cases p with
            | nil => exact (EpsPath.not_nil g _ _ h1).elim
            | cons b q => exact (EpsPath.end_eq g _ _ b q h1).2.2.2
          · exact ⟨a.stop, [a], h, .last a ha rfl h, hr⟩
        obtain ⟨e2, p, h1, h2, h3⟩ := key
        obtain ⟨es, ⟨i1, i2, b, i3, i4⟩, i5⟩ := ih w' e2 hl' h1 h3
        refine ⟨e2 :: es, ⟨?_, List.IsChain.cons_cons ⟨p, h2⟩ i2, b, ?_, i4⟩, ?_⟩
        · intro x hx
          rcases List.mem_cons.1 hx with rfl | hx
          · exact he
          · exact i1 x hx
        · rw [List.getLast?_cons_cons]
          exact i3
        · rw [i5]
          rfl

omit [Field F] [LinearOrder F] [IsStrictOrderedRing F] in
theorem goal_reads (g : Graph F) (hg : g.Inv) (e : ℕ) (hse : Silent g e) (es : List ℕ) :
    ∀ e1, Goal g e (e1 :: es) →
      Reads g (emitLab g) e e1 ((e1 :: es).map fun x => g.pdfMapping.getD (g.stateIndex x) 0) := by
  induction es with
  | nil =>
    rintro e1 ⟨_, _, b, hb, p, hp⟩
    cases hb
    exact reads_of_epsTo g hg e _ e p hp (.stop [] (Or.inl ⟨hse, rfl⟩))
  | cons e2 es ih =>
    rintro e1 ⟨h1, h2, b, hb, p, hp⟩
    rw [List.isChain_cons_cons] at h2
    obtain ⟨⟨q, hq⟩, h2⟩ := h2
    have hr := ih e2 ⟨fun x hx => h1 x (List.mem_cons_of_mem _ hx), h2, b, by
      rw [List.getLast?_cons_cons] at hb; exact hb, p, hp⟩
    have he := h1 e1 List.mem_cons_self
    rw [List.map_cons]
    change Reads g (emitLab g) e e1 ([_] ++ _)
    cases q with
    | nil => exact (EpsPath.not_nil g _ _ hq).elim
    | cons a q =>
      obtain ⟨rfl, ha, ⟨_, h', _⟩ | ⟨h', h''⟩⟩ := EpsPath.inv g _ _ a q hq
      · exact .step a _ _ ha ((lab_emits g hg _ _ he).2 rfl) (h' ▸ hr)
      · exact .step a _ _ ha ((lab_emits g hg _ _ he).2 rfl) (reads_of_eps g e e2 a.stop q _ h'' h' hr)

omit [Field F] [LinearOrder F] [IsStrictOrderedRing F] in
theorem accepts_iff (g : Graph F) (hg : g.Inv) (hc : Closed g) (s e : ℕ) (hs : g.startState = some s)
    (he : g.endState = some e) (hss : Silent g s) (hse : Silent g e) (w : List ℕ) (hw : w ≠ []) :
    Accepts g w ↔ ∃ e1 es, (∃ p, EpsPath g e1 s p) ∧ Goal g e (e1 :: es) ∧
      w = (e1 :: es).map fun x => g.pdfMapping.getD (g.stateIndex x) 0 := by
  constructor
  · rintro ⟨s', e', h1, h2, h⟩
    rw [hs] at h1
    rw [he] at h2
    cases h1
    cases h2
    obtain ⟨e1, p, hp, hr⟩ := eps_of_reads g hg hc e s w h hw hss
    have hem : Emits g e1 := by
      cases p with
      | nil => exact (EpsPath.not_nil g _ _ hp).elim
      | cons b q => exact (EpsPath.end_eq g _ _ b q hp).2.2.2
    obtain ⟨es, h3, h4⟩ := reads_goal g hg hc e hse _ w e1 le_rfl hem hr
    exact ⟨e1, es, ⟨p, hp⟩, h3, h4⟩
  · rintro ⟨e1, es, ⟨p, hp⟩, h3, rfl⟩
    exact ⟨s, e, hs, he, reads_of_eps g e e1 s p _ hp hss (goal_reads g hg e hse es e1 h3)⟩

omit [Field F] [LinearOrder F] [IsStrictOrderedRing F] in
theorem chain_congr {α β : Type} (R : α → α → Prop) (S : β → β → Prop) (f : α → β) (l : List α)
    (h : ∀ a ∈ l, ∀ b ∈ l, R a b ↔ S (f a) (f b)) : l.IsChain R ↔ (l.map f).IsChain S := by
  rw [List.isChain_map]
  induction l with
  | nil => simp
  | cons a l ih =>
    cases l with
    | nil => simp
    | cons b l =>
      rw [List.isChain_cons_cons, List.isChain_cons_cons, h a (by simp) b (by simp),
        ih fun x hx y hy => h x (List.mem_cons_of_mem _ hx) y (List.mem_cons_of_mem _ hy)]

theorem compile_support (g : Graph F) (hg : g.Inv) (hc : Closed g) (hw : ∀ a ∈ g.arcs, 0 < a.weight)
    (ho : OutSums g) (hd : Direct g) (s e : ℕ) (hs : g.startState = some s) (he : g.endState = some e)
    (c : Compiled F) (h : g.compile = .ok c) :
    c.pdfMapping = g.pdfMapping ∧
    (∀ v, c.init = some v → ∀ x, 0 < v (g.stateIndex x) ↔ ∃ p, EpsPath g x s p) ∧
    ((∃ x p, EpsPath g x s p) → ∃ v, c.init = some v) ∧
    (∀ v, c.final = some v → ∀ x, 0 < v (g.stateIndex x) ↔ ∃ p, EpsPathTo g x e p) ∧
    ((∃ x p, EpsPathTo g x e p) → ∃ v, c.final = some v) ∧
    ∀ a b, Emits g a → (0 < c.trans (g.stateIndex a) (g.stateIndex b) ↔ ∃ p, EpsPath g b a p) := by
  obtain ⟨c', li, lf, t, h', hli, hlf, ht, hi, hf, htr⟩ := compile_ok g hc
  rw [h] at h'
  cases h'
  rw [hs] at hli
  rw [he] at hlf
  have hwr : ∀ a ∈ g.reversed.arcs, 0 < a.weight := by
    intro a ha
    obtain ⟨b, hb, rfl⟩ := List.mem_map.1 ha
    exact hw b hb
  refine ⟨?_, ?_, ?_, ?_, ?_, ?_⟩
  · unfold compile at h
    rw [hs, he] at h
    simp only [findPrevious, hli, hlf, ht] at h
    cases h
    rfl
  · intro v hv x
    exact vec_support g hg s hw li hli v (hi ▸ hv) x
  · rintro ⟨x, p, hp⟩
    obtain ⟨v, hv⟩ := normalize_some g hg s x p hw li hli hp
    exact ⟨v, hi ▸ hv⟩
  · intro v hv x
    rw [← reversed_path_iff]
    exact vec_support g.reversed (reversed_inv g hg) e hwr lf hlf v (hf ▸ hv) x
  · rintro ⟨x, p, hp⟩
    obtain ⟨q, hq⟩ := (reversed_path_iff g x e).2 ⟨p, hp⟩
    obtain ⟨v, hv⟩ := normalize_some g.reversed (reversed_inv g hg) e x q hwr lf hlf hq
    exact ⟨v, hf ▸ hv⟩
  · intro a b ha
    obtain ⟨t1, t2, t3⟩ := transRaw_support g hg hc hw t ht
    rw [htr, ← t2 a b ha]
    refine row_support _ _ _ ?_ (t1 _) (t3 ho hd a ha) _
    exact List.idxOf_lt_length_iff.2 ((emits_mem g a).1 ha)

theorem compile_nonneg (g : Graph F) (hg : g.Inv) (hc : Closed g) (hw : ∀ a ∈ g.arcs, 0 < a.weight)
    (ho : OutSums g) (hd : Direct g) (s e : ℕ) (hs : g.startState = some s) (he : g.endState = some e)
    (c : Compiled F) (h : g.compile = .ok c) : Nonneg c := by
  obtain ⟨c0, -⟩ := compile_support g hg hc hw ho hd s e hs he c h
  obtain ⟨c', li, lf, t, h', hli, hlf, ht, hi, hf, htr⟩ := compile_ok g hc
  rw [h] at h'
  cases h'
  rw [hs] at hli
  rw [he] at hlf
  have hwr : ∀ a ∈ g.reversed.arcs, 0 ≤ a.weight := by
    intro a ha
    obtain ⟨b, hb, rfl⟩ := List.mem_map.1 ha
    exact (hw b hb).le
  rw [Nonneg, c0, mapping_length]
  refine ⟨?_, ?_, ?_⟩
  · intro v hv
    exact (normalize_dist g hg s (fun a ha => (hw a ha).le) li hli v (hi ▸ hv)).1
  · intro v hv
    exact (normalize_dist g.reversed (reversed_inv g hg) e hwr lf hlf v (hf ▸ hv)).1
  · intro a ha b _
    obtain ⟨t1, t2, t3⟩ := transRaw_support g hg hc hw t ht
    have hst : g.stateIndex g.emitting[a] = a := List.Nodup.idxOf_getElem (emitting_nodup g hg) a ha
    have hem : Emits g g.emitting[a] := (emits_mem g _).2 (List.getElem_mem _)
    rw [htr]
    refine row_nonneg _ _ _ ha (t1 a) ?_ b
    have := t3 ho hd _ hem
    rwa [hst] at this

end Graph
end Verif
