import Verif.Lemmas.GraphDirect
import Verif.Lemmas.LoopGraph
import Verif.Lemmas.Units
import Verif.Props.GraphSupport
import Verif.Props.GraphEdit

/-! # Helper lemmas: the languages of the compiled graphs of the commands -/

namespace Verif
namespace Graph

open Spec Props Pipeline

section

variable {F : Type} [Field F] [LinearOrder F] [IsStrictOrderedRing F]

/-- A normalised graph where silent states have a single way out compiles to a graph with the same paths. -/
theorem compiled_of_funnel (g : Graph F) (hg : g.Inv) (hc : Closed g) (hok : g.normalize.2 = none)
    (hw : ∀ a ∈ g.arcs, 0 < a.weight) (s e : ℕ) (hs : g.startState = some s) (he : g.endState = some e)
    (hss : Silent g s) (hf : Funnel g [] e) :
    ∃ c, g.normalize.1.compile = .ok c ∧ Nonneg c ∧ c.pdfMapping = g.pdfMapping ∧ ∀ w, w ≠ [] → (Spells c w ↔ Reads g (emitLab g) e s w) := by
  obtain ⟨n1, n2, n3, n4⟩ := normalize_lang g
  have hid : g.normalize.1.ids = g.ids := by unfold Graph.ids; rw [n2]
  have key : ∀ a ∈ g.normalize.1.arcs, ∃ b ∈ g.arcs, b.start = a.start ∧ b.stop = a.stop := by
    intro a ha
    have : a.key ∈ g.keys := n1 ▸ List.mem_map.2 ⟨a, ha, rfl⟩
    obtain ⟨b, hb, hbk⟩ := List.mem_map.1 this
    exact ⟨b, hb, congrArg Prod.fst hbk, congrArg Prod.snd hbk⟩
  have hclosed : Closed g.normalize.1 := by
    intro a ha
    obtain ⟨b, hb, h1, h2⟩ := key a ha
    rw [hid, ← h1, ← h2]
    exact hc b hb
  have hout : OutSums g.normalize.1 := by
    intro a ha
    obtain ⟨b, hb, h1, -⟩ := key a ha
    exact C02_sums_to_one g hg.ids_nodup hok a.start (h1 ▸ (hc b hb).1) ⟨b, hb, h1⟩
  have hsil : ∀ i, Silent g i → Silent g.normalize.1 i := by
    intro i hi
    unfold Silent at hi ⊢
    rw [n2]
    exact hi
  obtain ⟨c, h, hcn, hcw⟩ := C151_language_partial g.normalize.1 (normalize_inv g hg) hclosed (normalize_weights g hg hw)
    hout (direct_keys g _ (normalize_inv g hg) n2 n1 (funnel_direct g hg e hf)) s e (n3.trans hs) (n4.trans he)
    (hsil s hss) (hsil e hf.dead_mem)
  have hmap : c.pdfMapping = g.pdfMapping := by
    rw [(compile_support g.normalize.1 (normalize_inv g hg) hclosed (normalize_weights g hg hw)
      hout (direct_keys g _ (normalize_inv g hg) n2 n1 (funnel_direct g hg e hf)) s e (n3.trans hs) (n4.trans he) c h).1]
    unfold pdfMapping
    rw [n2]
  refine ⟨c, h, hcn, hmap, fun w hne => (hcw w hne).trans ?_⟩
  have hem : emitLab g.normalize.1 = emitLab g := by unfold emitLab; rw [n2]
  unfold Accepts
  rw [n3, n4, hs, he, hem]
  constructor
  · rintro ⟨s', e', hs', he', hr⟩
    cases hs'; cases he'
    exact (reads_keys _ _ _ n1 _ _ _).1 hr
  · intro hr
    exact ⟨s, e, rfl, rfl, (reads_keys _ _ _ n1 _ _ _).2 hr⟩

end

/-- The pdf ids of an alignment graph are those of its units. -/
theorem replaceSeq_pdf {F : Type} (base : ℕ) (units : List (String × Graph F)) (l : List (ℕ × String)) (hl : ∀ x ∈ l, x.1 < base)
    (g g' : Graph F) (hb : base ≤ g.count) (hs : ∀ s ∈ g.states, s.1 < base → s.2 = none)
    (h : replaceSeq units l g = .ok g') (i p : ℕ) (hp : (i, some p) ∈ g'.states) :
    (∃ i, (i, some p) ∈ g.states) ∨ ∃ x ∈ l, ∃ hmm, (x.2, hmm) ∈ units ∧ ∃ i, (i, some p) ∈ hmm.states := by
  induction l generalizing g with
  | nil => cases h; exact Or.inl ⟨i, hp⟩
  | cons x l ih =>
    obtain ⟨s, phone⟩ := x
    simp only [replaceSeq] at h
    split at h
    · cases h
    · rename_i hmm hgs
      have hsb := hl (s, phone) List.mem_cons_self
      dsimp only at hsb
      split at h
      · cases h
      · rename_i g1 hg1
        have hok := replaceState_ok g s hmm (by rw [hg1])
        rw [hg1] at hok
        dsimp only at hok
        obtain ⟨o1, o2, -⟩ := hok
        have hst : ∀ t ∈ g1.states, t ∈ g.states ∨ ∃ k, ∃ u ∈ hmm.states, t = (g.count + k, u.2) := by
          intro t ht
          rw [o1] at ht
          rcases List.mem_append.1 (List.mem_filter.1 ht).1 with h | h
          · exact Or.inl h
          · obtain ⟨k, hk, rfl⟩ := List.mem_mapIdx.1 h
            exact Or.inr ⟨k, _, List.getElem_mem hk, rfl⟩
        rcases ih (fun x hx => hl x (List.mem_cons_of_mem _ hx)) g1 (by omega) (by
          intro t ht htb
          rcases hst t ht with h | ⟨k, u, -, rfl⟩
          · exact hs t h htb
          · dsimp only at htb
            omega) h with ⟨j, hj⟩ | ⟨x, hx, h⟩
        · rcases hst _ hj with h | ⟨k, u, hu, he⟩
          · exact Or.inl ⟨j, h⟩
          · refine Or.inr ⟨(s, phone), List.mem_cons_self, hmm, dictGet_mem _ _ _ hgs, u.1, ?_⟩
            rw [show some p = u.2 from (Prod.ext_iff.1 he).2]
            exact hu
        · exact Or.inr ⟨x, List.mem_cons_of_mem _ hx, h⟩

/-- The words of a sequence of units, from the HMMs in order. -/
theorem forall₂_subs {F : Type} (units : List (String × Graph F)) (hn : (units.map Prod.fst).Nodup) (seq : List String)
    (subs : List (Graph F)) (hs : List.Forall₂ (fun u g => (u, g) ∈ units) seq subs) (ws : List (List ℕ)) :
    List.Forall₂ (fun u v => ∃ hmm, (u, hmm) ∈ units ∧ Accepts hmm v) seq ws ↔
      List.Forall₂ (fun g w => Accepts g w) subs ws := by
  induction hs generalizing ws with
  | nil => constructor <;> (intro h; cases h; exact .nil)
  | @cons u g seq subs hu _ ih =>
    constructor
    · intro h
      cases h with
      | cons h h' =>
        obtain ⟨g', hg', h⟩ := h
        have := congrArg Prod.snd (List.inj_on_of_nodup_map hn hg' hu rfl)
        dsimp only at this
        subst this
        exact .cons h ((ih _).1 h')
    · intro h
      cases h with
      | cons h h' => exact .cons ⟨g, hu, h⟩ ((ih _).2 h')

/-- The HMM of a unit is left by its last state only, when no arc leaves that state. -/
theorem unitHmm_ends {F : Type} [LT F] [Zero F] (topo : List (Arc F)) (n first : ℕ) (h : ValidTopo topo n)
    (hl : ∀ a ∈ topo, a.start ≠ n - 1) : Ends (unitHmm topo n first) := by
  have hn := h.size
  refine ⟨?_, ?_, ?_⟩
  · intro e he
    cases he
    exact List.mem_map.2 ⟨n - 1, List.mem_range.2 (by omega), by simp⟩
  · intro e he
    cases he
    exact hl
  · intro a ha _ hs
    obtain ⟨i, -, hi⟩ := List.mem_map.1 hs
    obtain ⟨h1, h2⟩ := Prod.ext_iff.1 hi
    dsimp only at h1 h2
    split at h2
    · rename_i h0
      rcases h0 with h0 | h0
      · right
        obtain ⟨x, hx, -, -, -, hu⟩ := h.entry
        intro b hb c hc hb0 hc0
        rw [hu b hb (by omega), hu c hc (by omega)]
      · left
        show some (n - 1) = _
        rw [← h1, h0]
    · cases h2

end Graph
end Verif
