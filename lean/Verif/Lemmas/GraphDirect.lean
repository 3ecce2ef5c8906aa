import Verif.Lemmas.GraphSupport
import Verif.Lemmas.GraphLang
import Verif.Lemmas.Pipeline

/-! # Helper lemmas: replacing states by HMMs keeps a single way out -/

namespace Verif
namespace Graph

open Spec Props

variable {F : Type}

/-- While states are replaced: at most one arc out of the states still to be replaced, and of the silent states entered
from emitting states, does not lead to the dead end. -/
structure Funnel (g : Graph F) (todo : List ℕ) (dead : ℕ) : Prop where
  dead_mem : Silent g dead
  dead_end : ∀ a ∈ g.arcs, a.start ≠ dead
  dead_todo : dead ∉ todo
  exits : ∀ a ∈ g.arcs, Emits g a.start → Silent g a.stop → ∀ b ∈ g.arcs, ∀ c ∈ g.arcs,
    b.start = a.stop → c.start = a.stop → b.stop ≠ dead → c.stop ≠ dead → b = c
  pending : ∀ o ∈ todo, ∀ b ∈ g.arcs, ∀ c ∈ g.arcs, b.start = o → c.start = o → b.stop ≠ dead → c.stop ≠ dead → b = c
  apart : ∀ a ∈ g.arcs, Emits g a.start → a.stop ∉ todo

theorem copy_inj (g sub : Graph F) (i j : ℕ) (hi : i ∈ sub.ids) (h : copyId g sub i = copyId g sub j) : i = j :=
  (List.idxOf_inj hi).1 (Nat.add_left_cancel h)

theorem mem_ids (g : Graph F) (i : ℕ) (o : Option ℕ) (h : (i, o) ∈ g.states) : i ∈ g.ids :=
  List.mem_map.2 ⟨_, h, rfl⟩

/-- The states after a replacement. -/
theorem replace_states (g sub : Graph F) (old a b : ℕ) (hg : Replaceable g old) (hs : UnitOK sub a b) :
    (∀ i o, i < g.count → ((i, o) ∈ (g.replaceState old sub).1.states ↔ (i, o) ∈ g.states ∧ i ≠ old)) ∧
    (∀ j o, j ∈ sub.ids → ((copyId g sub j, o) ∈ (g.replaceState old sub).1.states ↔ (j, o) ∈ sub.states)) := by
  obtain ⟨-, h2, -, -, -, -⟩ := C03_replace_state g sub old a b hg.inv hg.below hg.mem hg.noloop
    hs.inv hs.closed hs.start hs.start_mem hs.stop hs.stop_mem
  constructor
  · intro i o hi
    rw [h2, List.mem_append, List.mem_filter, List.mem_mapIdx]
    constructor
    · rintro (⟨h, h'⟩ | ⟨k, hk, he⟩)
      · exact ⟨h, by simpa using h'⟩
      · have := congrArg Prod.fst he
        dsimp only at this
        omega
    · rintro ⟨h, h'⟩
      exact Or.inl ⟨h, by simpa using h'⟩
  · intro j o hj
    rw [h2, List.mem_append, List.mem_filter, List.mem_mapIdx]
    have hlt : sub.ids.idxOf j < sub.states.length := by
      have h := List.idxOf_lt_length_of_mem hj
      simpa [ids] using h
    have hget : (sub.states[sub.ids.idxOf j]'hlt).1 = j := by
      have : sub.ids[sub.ids.idxOf j]'(List.idxOf_lt_length_of_mem hj) = j := List.getElem_idxOf _
      have h' : ∀ k (hk : k < sub.ids.length) (hk' : k < sub.states.length), sub.ids[k] = (sub.states[k]).1 :=
        fun k hk hk' => List.getElem_map _
      rw [h' _ _ hlt] at this
      exact this
    constructor
    · rintro (⟨h, _⟩ | ⟨k, hk, he⟩)
      · have := hg.inv.ids_lt _ (mem_ids g _ _ h)
        unfold copyId at this
        omega
      · have h1 : k = sub.ids.idxOf j := by
          have := congrArg Prod.fst he
          unfold copyId at this
          dsimp only at this
          omega
        have h2 : (sub.states[k]'hk).2 = o := congrArg Prod.snd he
        subst h1
        have : sub.states[sub.ids.idxOf j]'hlt = (j, o) := Prod.ext hget h2
        rw [← this]
        exact List.getElem_mem _
    · intro h
      refine Or.inr ⟨sub.ids.idxOf j, hlt, ?_⟩
      have h3 : (sub.states[sub.ids.idxOf j]'hlt).2 = o := by
        have h4 : (sub.states[sub.ids.idxOf j]'hlt) ∈ sub.states := List.getElem_mem _
        have h5 := List.inj_on_of_nodup_map hs.inv.ids_nodup h4 h hget
        rw [h5]
      rw [h3]
      rfl

/-- The arcs after a replacement. -/
theorem replace_arcs (g sub : Graph F) (old a b : ℕ) (hg : Replaceable g old) (hs : UnitOK sub a b) (x : Arc F) :
    x ∈ (g.replaceState old sub).1.arcs ↔
      (x ∈ g.arcs ∧ x.start ≠ old ∧ x.stop ≠ old) ∨
      (∃ y ∈ sub.arcs, x = ⟨copyId g sub y.start, copyId g sub y.stop, y.weight⟩) ∨
      (∃ y ∈ g.arcs, y.start = old ∧ x = ⟨copyId g sub b, y.stop, y.weight⟩) ∨
      (∃ y ∈ g.arcs, y.stop = old ∧ x = ⟨y.start, copyId g sub a, y.weight⟩) := by
  obtain ⟨-, -, hperm, -, -, -⟩ := C03_replace_state g sub old a b hg.inv hg.below hg.mem hg.noloop
    hs.inv hs.closed hs.start hs.start_mem hs.stop hs.stop_mem
  rw [hperm.mem_iff]
  simp only [List.mem_append, List.mem_filter, List.mem_map, decide_eq_true_eq, or_assoc, and_assoc]
  constructor
  · rintro (h | ⟨y, hy, rfl⟩ | ⟨y, hy, hy', rfl⟩ | ⟨y, hy, hy', rfl⟩)
    · exact Or.inl h
    · exact Or.inr (Or.inl ⟨y, hy, rfl⟩)
    · exact Or.inr (Or.inr (Or.inl ⟨y, hy, hy', rfl⟩))
    · exact Or.inr (Or.inr (Or.inr ⟨y, hy, hy', rfl⟩))
  · rintro (h | ⟨y, hy, rfl⟩ | ⟨y, hy, hy', rfl⟩ | ⟨y, hy, hy', rfl⟩)
    · exact Or.inl h
    · exact Or.inr (Or.inl ⟨y, hy, rfl⟩)
    · exact Or.inr (Or.inr (Or.inl ⟨y, hy, hy', rfl⟩))
    · exact Or.inr (Or.inr (Or.inr ⟨y, hy, hy', rfl⟩))

theorem funnel_replace (g sub : Graph F) (old a b dead : ℕ) (todo : List ℕ) (hg : Replaceable g old)
    (hs : UnitOK sub a b) (he : Ends sub) (hf : Funnel g (old :: todo) dead) (hn : old ∉ todo)
    (hlt : ∀ o ∈ todo, o < g.count) : Funnel (g.replaceState old sub).1 todo dead := by
  obtain ⟨st1, st2⟩ := replace_states g sub old a b hg hs
  have harc := replace_arcs g sub old a b hg hs
  set g' := (g.replaceState old sub).1 with hg'
  have hge : ∀ i, g.count ≤ copyId g sub i := fun i => Nat.le_add_right _ _
  have hdl : dead < g.count := hg.inv.ids_lt _ (mem_ids g _ _ hf.dead_mem)
  have hdo : dead ≠ old := fun h => hf.dead_todo (h ▸ List.mem_cons_self)
  have emi : ∀ i, i < g.count → Emits g' i → Emits g i := fun i hi ⟨p, hp⟩ => ⟨p, ((st1 i _ hi).1 hp).1⟩
  have emc : ∀ j ∈ sub.ids, Emits g' (copyId g sub j) → Emits sub j := fun j hj ⟨p, hp⟩ => ⟨p, (st2 j _ hj).1 hp⟩
  have sii : ∀ i, i < g.count → Silent g' i → Silent g i := fun i hi h => ((st1 i _ hi).1 h).1
  have sic : ∀ j ∈ sub.ids, Silent g' (copyId g sub j) → Silent sub j := fun j hj h => (st2 j _ hj).1 h
  have hinv := (replace_keeps g sub old a b hg hs).2.1
  have hbs : Silent g' (copyId g sub b) := (st2 b _ hs.stop_mem).2 (he.silent b hs.stop)
  -- ways out of an old state
  have out_old : ∀ i, i < g.count → i ≠ old → (∀ y ∈ g.arcs, ∀ z ∈ g.arcs, y.start = i → z.start = i →
      y.stop ≠ dead → z.stop ≠ dead → y = z) → ∀ y ∈ g'.arcs, ∀ z ∈ g'.arcs, y.start = i → z.start = i →
      y.stop ≠ dead → z.stop ≠ dead → y = z := by
    intro i hi hio hyz
    have orig : ∀ y ∈ g'.arcs, y.start = i → y.stop ≠ dead → ∃ y' ∈ g.arcs, y'.start = i ∧ y'.stop ≠ dead ∧
        y = if y'.stop = old then ⟨i, copyId g sub a, y'.weight⟩ else y' := by
      intro y hy h1 h2
      rcases (harc y).1 hy with ⟨h, h3, h4⟩ | ⟨x, hx, rfl⟩ | ⟨x, hx, hxo, rfl⟩ | ⟨x, hx, hxo, rfl⟩
      · exact ⟨y, h, h1, h2, by rw [if_neg h4]⟩
      · have := hge x.start
        dsimp only at h1
        omega
      · have := hge b
        dsimp only at h1
        omega
      · dsimp only at h1
        exact ⟨x, hx, h1, by rw [hxo]; exact hdo.symm, by rw [if_pos hxo, h1]⟩
    intro y hy z hz h1 h2 h3 h4
    obtain ⟨y', hy', e1, e2, rfl⟩ := orig y hy h1 h3
    obtain ⟨z', hz', f1, f2, rfl⟩ := orig z hz h2 h4
    rw [hyz y' hy' z' hz' e1 f1 e2 f2]
  refine ⟨(st1 dead _ hdl).2 ⟨hf.dead_mem, hdo⟩, ?_, fun h => hf.dead_todo (List.mem_cons_of_mem _ h), ?_, ?_, ?_⟩
  · intro x hx hxd
    rcases (harc x).1 hx with ⟨h, _, _⟩ | ⟨y, hy, rfl⟩ | ⟨y, hy, hyo, rfl⟩ | ⟨y, hy, hyo, rfl⟩
    · exact hf.dead_end x h hxd
    · have := hge y.start
      dsimp only at hxd
      omega
    · have := hge b
      dsimp only at hxd
      omega
    · exact hf.dead_end y hy hxd
  · intro x hx hxe hxs
    rcases (harc x).1 hx with ⟨h, h1, h2⟩ | ⟨y, hy, rfl⟩ | ⟨y, hy, hyo, rfl⟩ | ⟨y, hy, hyo, rfl⟩
    · have hb := hg.below x h
      exact out_old x.stop hb.2 h2 (fun y hy z hz => hf.exits x h (emi _ hb.1 hxe) (sii _ hb.2 hxs) y hy z hz)
    · dsimp only at hxe hxs ⊢
      have hcl := hs.closed y hy
      -- ways out of a copy
      have out_copy : ∀ z ∈ g'.arcs, z.start = copyId g sub y.stop →
          (∃ z' ∈ sub.arcs, z'.start = y.stop ∧ z = ⟨copyId g sub z'.start, copyId g sub z'.stop, z'.weight⟩) ∨
          (y.stop = b ∧ ∃ z' ∈ g.arcs, z'.start = old ∧ z = ⟨copyId g sub b, z'.stop, z'.weight⟩) := by
        intro z hz hzs
        rcases (harc z).1 hz with ⟨h, _, _⟩ | ⟨z', hz', rfl⟩ | ⟨z', hz', hzo, rfl⟩ | ⟨z', hz', hzo, rfl⟩
        · have := hge y.stop
          have := (hg.below z h).1
          omega
        · exact Or.inl ⟨z', hz', copy_inj g sub _ _ (hs.closed z' hz').1 hzs, rfl⟩
        · exact Or.inr ⟨(copy_inj g sub _ _ hs.stop_mem hzs).symm, z', hz', hzo, rfl⟩
        · have := hge y.stop
          have := (hg.below z' hz').1
          dsimp only at hzs
          omega
      intro z hz w hw h1 h2 h3 h4
      rcases he.inner y hy (emc _ hcl.1 hxe) (sic _ hcl.2 hxs) with hend | hone
      · have hyb : y.stop = b := by
          rw [hs.stop] at hend
          exact (Option.some.inj hend).symm
        rcases out_copy z hz h1 with ⟨z', hz', e1, _⟩ | ⟨_, z', hz', e1, rfl⟩
        · exact absurd (e1.trans hyb) (he.last b hs.stop z' hz')
        · rcases out_copy w hw h2 with ⟨w', hw', f1, _⟩ | ⟨_, w', hw', f1, rfl⟩
          · exact absurd (f1.trans hyb) (he.last b hs.stop w' hw')
          · rw [hf.pending old List.mem_cons_self z' hz' w' hw' e1 f1 h3 h4]
      · by_cases hyb : y.stop = b
        · rcases out_copy z hz h1 with ⟨z', hz', e1, _⟩ | ⟨_, z', hz', e1, rfl⟩
          · exact absurd (e1.trans hyb) (he.last b hs.stop z' hz')
          · rcases out_copy w hw h2 with ⟨w', hw', f1, _⟩ | ⟨_, w', hw', f1, rfl⟩
            · exact absurd (f1.trans hyb) (he.last b hs.stop w' hw')
            · rw [hf.pending old List.mem_cons_self z' hz' w' hw' e1 f1 h3 h4]
        · rcases out_copy z hz h1 with ⟨z', hz', e1, rfl⟩ | ⟨h, _⟩
          · rcases out_copy w hw h2 with ⟨w', hw', f1, rfl⟩ | ⟨h, _⟩
            · rw [hone z' hz' w' hw' e1 f1]
            · exact absurd h hyb
          · exact absurd h hyb
    · exact (emits_silent g' hinv _ hxe hbs).elim
    · dsimp only at hxe
      have := hf.apart y hy (emi _ (hg.below y hy).1 hxe)
      rw [hyo] at this
      exact (this List.mem_cons_self).elim
  · intro o ho
    exact out_old o (hlt o ho) (fun h => hn (h ▸ ho)) (hf.pending o (List.mem_cons_of_mem _ ho))
  · intro x hx hxe hxo
    have hxl := hlt _ hxo
    rcases (harc x).1 hx with ⟨h, _, _⟩ | ⟨y, hy, rfl⟩ | ⟨y, hy, hyo, rfl⟩ | ⟨y, hy, hyo, rfl⟩
    · exact hf.apart x h (emi _ (hg.below x h).1 hxe) (List.mem_cons_of_mem _ hxo)
    · have := hge y.stop
      dsimp only at hxl
      omega
    · exact emits_silent g' hinv _ hxe hbs
    · have := hge a
      dsimp only at hxl
      omega

theorem funnel_list (l : List (ℕ × Graph F)) (base dead : ℕ) (g : Graph F) (hb : base ≤ g.count)
    (hn : (l.map Prod.fst).Nodup)
    (hl : ∀ p ∈ l, p.1 < base ∧ Replaceable g p.1 ∧ (∃ a b, UnitOK p.2 a b) ∧ Ends p.2)
    (hf : Funnel g (l.map Prod.fst) dead) : Funnel (replaceList l g).1 [] dead := by
  induction l generalizing g with
  | nil => exact hf
  | cons p l ih =>
    obtain ⟨old, sub⟩ := p
    rw [List.map_cons, List.nodup_cons] at hn
    obtain ⟨hob, hrep, ⟨a, b, hunit⟩, hend⟩ := hl (old, sub) List.mem_cons_self
    dsimp only at hob hrep hunit hend
    obtain ⟨k1, k2, k3, k4, k5, k6, k7, k8, k9⟩ := replace_keeps g sub old a b hrep hunit
    have hR : replaceList ((old, sub) :: l) g = replaceList l (g.replaceState old sub).1 := by
      simp only [replaceList]
      generalize hr : g.replaceState old sub = r at *
      obtain ⟨g', e⟩ := r
      dsimp only at k1
      subst k1
      rfl
    rw [hR]
    refine ih _ (by omega) hn.2 ?_ ?_
    · intro p hp
      obtain ⟨q1, q2, q3, q4⟩ := hl p (List.mem_cons_of_mem _ hp)
      refine ⟨q1, k7 p.1 ?_ (by omega) q2, q3, q4⟩
      rintro rfl
      exact hn.1 (List.mem_map.2 ⟨p, hp, rfl⟩)
    · refine funnel_replace g sub old a b dead _ hrep hunit hend hf hn.1 ?_
      intro o ho
      obtain ⟨p, hp, rfl⟩ := List.mem_map.1 ho
      have := (hl p (List.mem_cons_of_mem _ hp)).1
      omega

theorem replaceList_state (l : List (ℕ × Graph F)) (base : ℕ) (g : Graph F) (hb : base ≤ g.count)
    (hn : (l.map Prod.fst).Nodup) (hl : ∀ p ∈ l, p.1 < base ∧ Replaceable g p.1 ∧ ∃ a b, UnitOK p.2 a b)
    (i : ℕ) (o : Option ℕ) (hi : i < base) (hil : i ∉ l.map Prod.fst) (h : (i, o) ∈ g.states) :
    (i, o) ∈ (replaceList l g).1.states := by
  induction l generalizing g with
  | nil => exact h
  | cons p l ih =>
    obtain ⟨old, sub⟩ := p
    rw [List.map_cons, List.nodup_cons] at hn
    simp only [List.map_cons, List.mem_cons, not_or] at hil
    obtain ⟨hob, hrep, a, b, hunit⟩ := hl (old, sub) List.mem_cons_self
    dsimp only at hob hrep hunit
    obtain ⟨k1, k2, k3, k4, k5, k6, k7, k8, k9⟩ := replace_keeps g sub old a b hrep hunit
    have hR : replaceList ((old, sub) :: l) g = replaceList l (g.replaceState old sub).1 := by
      simp only [replaceList]
      generalize hr : g.replaceState old sub = r at *
      obtain ⟨g', e⟩ := r
      dsimp only at k1
      subst k1
      rfl
    rw [hR]
    refine ih _ (by omega) hn.2 ?_ hil.2 (((replace_states g sub old a b hrep hunit).1 i o (by omega)).2 ⟨h, hil.1⟩)
    intro p hp
    obtain ⟨q1, q2, q3⟩ := hl p (List.mem_cons_of_mem _ hp)
    refine ⟨q1, k7 p.1 ?_ (by omega) q2, q3⟩
    rintro rfl
    exact hn.1 (List.mem_map.2 ⟨p, hp, rfl⟩)

/-- The pdf ids after replacements are those of the graph and of the graphs put in. -/
theorem replaceList_pdf (l : List (ℕ × Graph F)) (g : Graph F) (hok : (replaceList l g).2 = none) (i p : ℕ)
    (hp : (i, some p) ∈ (replaceList l g).1.states) :
    (∃ i, (i, some p) ∈ g.states) ∨ ∃ x ∈ l, ∃ i, (i, some p) ∈ x.2.states := by
  induction l generalizing g with
  | nil => exact Or.inl ⟨i, hp⟩
  | cons x l ih =>
    obtain ⟨old, sub⟩ := x
    simp only [replaceList] at hok hp
    split at hok
    · cases hok
    · rename_i g1 hg1
      rw [hg1] at hp
      dsimp only at hp
      have ho := replaceState_ok g old sub (by rw [hg1])
      rw [hg1] at ho
      rcases ih g1 hok hp with ⟨j, hj⟩ | ⟨x, hx, h⟩
      · rw [ho.1] at hj
        rcases List.mem_append.1 (List.mem_filter.1 hj).1 with h | h
        · exact Or.inl ⟨j, h⟩
        · obtain ⟨k, hk, he⟩ := List.mem_mapIdx.1 h
          refine Or.inr ⟨(old, sub), List.mem_cons_self, sub.states[k].1, ?_⟩
          rw [show some p = sub.states[k].2 from (Prod.ext_iff.1 he).2.symm]
          exact List.getElem_mem hk
      · exact Or.inr ⟨x, List.mem_cons_of_mem _ hx, h⟩

/-- The pdf ids after the replacement of silent states, in order. -/
theorem replaceList_pdfs (l : List (ℕ × Graph F)) (c : ℕ) (g : Graph F) (hc : c ≤ g.count) (hl : ∀ p ∈ l, p.1 < c)
    (hem : ∀ i q, (i, some q) ∈ g.states → c ≤ i) (hok : (replaceList l g).2 = none) :
    (replaceList l g).1.pdfMapping = g.pdfMapping ++ l.flatMap fun p => p.2.pdfMapping := by
  induction l generalizing g with
  | nil => simp [replaceList]
  | cons x l ih =>
    obtain ⟨old, sub⟩ := x
    simp only [replaceList] at hok ⊢
    split at hok
    · cases hok
    · rename_i g1 hg1
      have ho := replaceState_ok g old sub (by rw [hg1])
      rw [hg1] at ho
      dsimp only at ho
      have hold : old < c := hl _ List.mem_cons_self
      have h1 : g1.pdfMapping = g.pdfMapping ++ sub.pdfMapping := by
        have hk : ∀ (k : ℕ) (l : List (ℕ × Option ℕ)),
            ((l.mapIdx (fun j s => (g.count + (k + j), s.2))).filter (fun s => s.1 ≠ old)).filterMap Prod.snd
              = l.filterMap Prod.snd := by
          intro k l
          induction l generalizing k with
          | nil => rfl
          | cons s l ih =>
            rw [List.mapIdx_cons, List.filter_cons_of_pos (by simp; omega)]
            have := ih (k + 1)
            rw [show (fun j (s : ℕ × Option ℕ) => (g.count + (k + 1 + j), s.2))
              = fun j s => (g.count + (k + (j + 1)), s.2) from by
                funext j s; rw [show k + 1 + j = k + (j + 1) by omega]] at this
            simp only [List.filterMap_cons, this]
        have hg : ∀ l : List (ℕ × Option ℕ), (∀ i q, (i, some q) ∈ l → c ≤ i) →
            (l.filter (fun s => s.1 ≠ old)).filterMap Prod.snd = l.filterMap Prod.snd := by
          intro l
          induction l with
          | nil => intro _; rfl
          | cons s l ih =>
            intro h
            have ih := ih fun i q hi => h i q (List.mem_cons_of_mem _ hi)
            obtain ⟨i, o⟩ := s
            cases o with
            | none =>
              by_cases hi : i = old
              · rw [List.filter_cons_of_neg (by simpa using hi), ih]
                rfl
              · rw [List.filter_cons_of_pos (by simpa using hi), List.filterMap_cons, List.filterMap_cons, ih]
            | some q =>
              have := h i q List.mem_cons_self
              rw [List.filter_cons_of_pos (by simp; omega), List.filterMap_cons, List.filterMap_cons, ih]
        unfold pdfMapping
        rw [ho.1, List.filter_append, List.filterMap_append, hg _ hem]
        congr 1
        have := hk 0 sub.states
        simpa using this
      rw [ih g1 (by rw [ho.2.1]; omega) (fun p hp => hl p (List.mem_cons_of_mem _ hp)) ?_ hok, h1, List.flatMap_cons,
        List.append_assoc]
      intro i q hi
      rw [ho.1] at hi
      rcases List.mem_append.1 (List.mem_filter.1 hi).1 with h | h
      · exact hem i q h
      · obtain ⟨k, hk, he⟩ := List.mem_mapIdx.1 h
        have := (Prod.ext_iff.1 he).1
        dsimp only at this
        omega

theorem funnel_direct (g : Graph F) (hg : g.Inv) (dead : ℕ) (hf : Funnel g [] dead) : Direct g := by
  intro a ha he hs
  refine Or.inr fun b hb c hc h1 h2 l1 l2 => hf.exits a ha he hs b hb c hc h1 h2 ?_ ?_
  · intro h
    rcases l1 with h' | ⟨d, hd, hd'⟩
    · exact emits_silent g hg _ (h ▸ h') hf.dead_mem
    · exact hf.dead_end d hd (hd'.trans h)
  · intro h
    rcases l2 with h' | ⟨d, hd, hd'⟩
    · exact emits_silent g hg _ (h ▸ h') hf.dead_mem
    · exact hf.dead_end d hd (hd'.trans h)

theorem direct_keys (g g' : Graph F) (hg' : g'.Inv) (hs : g'.states = g.states) (hk : g'.keys = g.keys)
    (hd : Direct g) : Direct g' := by
  have key : ∀ a ∈ g'.arcs, ∃ b ∈ g.arcs, b.start = a.start ∧ b.stop = a.stop := by
    intro a ha
    have : a.key ∈ g.keys := hk ▸ List.mem_map.2 ⟨a, ha, rfl⟩
    obtain ⟨b, hb, hbk⟩ := List.mem_map.1 this
    exact ⟨b, hb, congrArg Prod.fst hbk, congrArg Prod.snd hbk⟩
  have key' : ∀ a ∈ g.arcs, ∃ b ∈ g'.arcs, b.start = a.start ∧ b.stop = a.stop := by
    intro a ha
    have : a.key ∈ g'.keys := hk ▸ List.mem_map.2 ⟨a, ha, rfl⟩
    obtain ⟨b, hb, hbk⟩ := List.mem_map.1 this
    exact ⟨b, hb, congrArg Prod.fst hbk, congrArg Prod.snd hbk⟩
  have he : ∀ i, Emits g' i ↔ Emits g i := fun i => by unfold Emits; rw [hs]
  have hsi : ∀ i, Silent g' i ↔ Silent g i := fun i => by unfold Silent; rw [hs]
  have hlead : ∀ b b', b.stop = b'.stop → LeadsOn g' b → LeadsOn g b' := by
    rintro b b' h (h1 | ⟨d, hd, h1⟩)
    · exact Or.inl ((he _).1 (h ▸ h1))
    · obtain ⟨d', hd', e1, _⟩ := key d hd
      exact Or.inr ⟨d', hd', by rw [e1, h1, h]⟩
  intro a ha hae has
  obtain ⟨a', ha', e1, e2⟩ := key a ha
  rcases hd a' ha' (e1 ▸ (he _).1 hae) (e2 ▸ (hsi _).1 has) with h | h
  · refine Or.inl fun b hb hb' => ?_
    obtain ⟨b', hb1, f1, f2⟩ := key b hb
    rw [he, ← f2]
    exact h b' hb1 (by rw [f1, hb', e2])
  · refine Or.inr fun b hb c hc h1 h2 l1 l2 => ?_
    obtain ⟨b', hb1, f1, f2⟩ := key b hb
    obtain ⟨c', hc1, i1, i2⟩ := key c hc
    have hbc := h b' hb1 c' hc1 (by rw [f1, h1, e2]) (by rw [i1, h2, e2]) (hlead b b' f2.symm l1)
      (hlead c c' i2.symm l2)
    have hkk : b.key = c.key := by
      unfold Arc.key
      rw [← f1, ← f2, ← i1, ← i2, hbc]
    exact List.inj_on_of_nodup_map hg'.keys_nodup hb hc hkk

end Graph
end Verif
