import Verif.Spec.PostCmd
import Verif.Props.DecodeMain

/-!
# Lemmas: posteriors
-/

namespace Verif.PostCmd

open Verif Verif.Spec Verif.Props Verif.DecodeCmd Verif.Pipeline

variable {d : ℕ}

theorem pathWeight_shift {K n : ℕ} (g : CGraph K) (llhs llhs' : Fin (n + 1) → Frame K) (c : Fin (n + 1) → ℝ)
    (h : ∀ t s, llhs' t s = llhs t s + ((c t : ℝ) : LogR)) (p : Fin (n + 1) → Fin K) :
    pathWeight g llhs' p = pathWeight g llhs p * ∏ t, Real.exp (c t) := by
  unfold pathWeight
  simp only [h, lexp_add, lexp_coe, Finset.prod_mul_distrib]
  ring

/-- Adding the same number to the log-likelihoods of all the states of a frame does not change the posteriors. -/
theorem stateProb_shift {K n : ℕ} (g : CGraph K) (llhs llhs' : Fin (n + 1) → Frame K) (c : Fin (n + 1) → ℝ)
    (h : ∀ t s, llhs' t s = llhs t s + ((c t : ℝ) : LogR)) (t : Fin (n + 1)) (s : Fin K) :
    stateProb g llhs' t s = stateProb g llhs t s := by
  unfold stateProb
  have hne : (∏ t, Real.exp (c t)) ≠ 0 := Finset.prod_ne_zero_iff.2 fun t _ => (Real.exp_pos _).ne'
  simp only [pathWeight_shift g llhs llhs' c h, ← Finset.sum_mul]
  rw [show (∑ p : Fin (n + 1) → Fin K, if p t = s then pathWeight g llhs p * ∏ t, Real.exp (c t) else 0)
    = (∑ p : Fin (n + 1) → Fin K, if p t = s then pathWeight g llhs p else 0) * ∏ t, Real.exp (c t) from by
      rw [Finset.sum_mul]
      refine Finset.sum_congr rfl fun p _ => ?_
      split_ifs
      · rfl
      · rw [zero_mul]]
  exact mul_div_mul_right _ _ hne

theorem sum_ne_bot {ι : Type} (s : Finset ι) (f : ι → LogR) (h : ∀ i ∈ s, f i ≠ ⊥) : ∑ i ∈ s, f i ≠ ⊥ := by
  classical
  induction s using Finset.induction_on with
  | empty => rw [Finset.sum_empty]; exact WithBot.coe_ne_bot (a := (0 : ℝ))
  | insert i s hi ih =>
    rw [Finset.sum_insert hi, Ne, WithBot.add_eq_bot, not_or]
    exact ⟨h i (Finset.mem_insert_self _ _), ih fun j hj => h j (Finset.mem_insert_of_mem hj)⟩

theorem ne_bot_of_sum {ι : Type} (s : Finset ι) (f : ι → LogR) (h : ∑ i ∈ s, f i ≠ ⊥) : ∀ i ∈ s, f i ≠ ⊥ := by
  classical
  induction s using Finset.induction_on with
  | empty => simp
  | insert i s hi ih =>
    rw [Finset.sum_insert hi, Ne, WithBot.add_eq_bot, not_or] at h
    intro j hj
    rcases Finset.mem_insert.1 hj with rfl | hj
    · exact h.1
    · exact ih h.2 j hj

/-- With finite log-likelihoods, the utterance has a probability exactly when the graph allows a path of its length. -/
theorem evidence_possible (g : LGraph) (n : ℕ) (llh : Fin (n + 1) → Fin (g.last + 1) → ℝ) :
    0 < evidence g.graph (fun t k => ((llh t k : ℝ) : LogR)) ↔ ∃ w, Possible g w ∧ w.length = n + 1 := by
  rw [evidence_pos_iff]
  constructor
  · rintro ⟨p, hp⟩
    unfold pathScore at hp
    rw [Ne, WithBot.add_eq_bot, WithBot.add_eq_bot, WithBot.add_eq_bot, not_or, not_or, not_or] at hp
    refine ⟨(List.ofFn p).map g.pdf, ⟨List.ofFn p, ⟨_, ofFn_head _ _, hp.1.1.1⟩, ?_, ⟨_, ofFn_last _ _, hp.2⟩, rfl⟩,
      by simp⟩
    rw [List.isChain_ofFn]
    intro i hi
    exact ne_bot_of_sum _ _ hp.1.1.2 ⟨i, by omega⟩ (Finset.mem_univ _)
  · rintro ⟨w, ⟨q, ⟨a, ha, hia⟩, hch, ⟨b, hb, hfb⟩, rfl⟩, hl⟩
    rw [List.length_map] at hl
    obtain ⟨p, rfl⟩ := exists_ofFn n q hl
    rw [ofFn_head] at ha
    rw [ofFn_last] at hb
    cases ha
    cases hb
    rw [List.isChain_ofFn] at hch
    refine ⟨p, ?_⟩
    unfold pathScore
    rw [Ne, WithBot.add_eq_bot, WithBot.add_eq_bot, WithBot.add_eq_bot, not_or, not_or, not_or]
    exact ⟨⟨⟨hia, sum_ne_bot _ _ fun i _ => hch i.1 (by omega)⟩, sum_ne_bot _ _ fun t _ => WithBot.coe_ne_bot⟩, hfb⟩

theorem row_length (s : Fin d → ℝ) (mem : Member d) : (mem.row s).length = mem.size := by
  cases mem <;> simp [Member.row, Member.size]

theorem setRow_length (set : List (Member d)) (s : Fin d → ℝ) : (setRow set s).length = (set.map Member.size).sum := by
  unfold setRow
  rw [List.length_flatMap]
  congr 1
  exact List.map_congr_left fun m _ => row_length s m

theorem affine_scale (base scale : ℝ) (s v : Fin d → ℝ) :
    affine base (fun i => s i * scale) v = scale * affine base s v + (1 - scale) * base := by
  unfold affine
  rw [mul_add, Finset.mul_sum]
  have : ∀ i, s i * scale * v i = scale * (s i * v i) := fun i => by ring
  simp only [this]
  ring

/-- Sets of Normals: scaling the statistics scales the log-likelihoods and adds a constant. -/
theorem setRow_scale (base scale : ℝ) (set : List (Member d)) (hs : ∀ m ∈ set, ∃ nat, m = .normals base nat)
    (s : Fin d → ℝ) : setRow set (fun i => s i * scale) = (setRow set s).map fun v => scale * v + (1 - scale) * base := by
  unfold setRow
  rw [List.map_flatMap]
  refine List.flatMap_congr fun m hm => ?_
  obtain ⟨nat, rfl⟩ := hs m hm
  simp only [Member.row, List.map_map]
  refine List.map_congr_left fun v _ => ?_
  exact affine_scale base scale s v

theorem getD_map {α : Type} (l : List α) (f : α → ℝ) (a : α) (b : ℝ) (i : ℕ) (h : i < l.length) :
    (l.map f).getD i b = f (l.getD i a) := by
  rw [List.getD_eq_getElem?_getD, List.getD_eq_getElem?_getD, List.getElem?_map, List.getElem?_eq_getElem h]
  rfl

/-- The log-likelihoods `HMM.posteriors` uses. -/
noncomputable def codeLlh (m : PModel d) (scale : ℝ) {n : ℕ} (stats : Fin n → Fin d → ℝ) :
    Fin n → Frame (m.graph.last + 1) :=
  fun t k => (((setRow m.emissions fun i => stats t i * scale).getD (m.graph.pdf k) 0 : ℝ) : LogR)

theorem posteriors_eq (m : PModel d) (hp : ∀ k, m.graph.pdf k < (m.emissions.map Member.size).sum) (scale : ℝ) (n : ℕ)
    (stats : Fin (n + 1) → Fin d → ℝ) :
    posteriors m scale ⟨n + 1, stats⟩ = .ok (List.ofFn fun t => List.ofFn fun k =>
      ofPost (statePosts m.graph.graph (codeLlh m scale stats) t k)) := by
  unfold posteriors
  rw [if_neg (by
    rw [List.any_eq_true]
    rintro ⟨k, -, hk⟩
    have := hp k
    have := of_decide_eq_true hk
    omega)]
  rfl

theorem posteriors_possible (m : PModel d) (hp : ∀ k, m.graph.pdf k < (m.emissions.map Member.size).sum) (scale : ℝ)
    (n : ℕ) (stats : Fin (n + 1) → Fin d → ℝ) (hw : ∃ w, Possible m.graph w ∧ w.length = n + 1) :
    posteriors m scale ⟨n + 1, stats⟩ = .ok (List.ofFn fun t => List.ofFn fun k =>
      ((stateProb m.graph.graph (codeLlh m scale stats) t k : ℝ) : NFloat)) := by
  rw [posteriors_eq m hp]
  have hev := (evidence_possible m.graph n fun t k => (setRow m.emissions fun i => stats t i * scale).getD (m.graph.pdf k) 0).2 hw
  have : ∀ t k, statePosts m.graph.graph (codeLlh m scale stats) t k
      = some (stateProb m.graph.graph (codeLlh m scale stats) t k) := fun t k =>
    C11_state_posterior_is_marginal m.graph.graph (codeLlh m scale stats) hev t k
  simp only [this]
  rfl

theorem posteriors_impossible (m : PModel d) (hp : ∀ k, m.graph.pdf k < (m.emissions.map Member.size).sum) (scale : ℝ)
    (n : ℕ) (stats : Fin (n + 1) → Fin d → ℝ) (hw : ¬ ∃ w, Possible m.graph w ∧ w.length = n + 1) :
    posteriors m scale ⟨n + 1, stats⟩ = .ok (List.replicate (n + 1) (List.replicate (m.graph.last + 1) ⊤)) := by
  rw [posteriors_eq m hp]
  have hev : evidence m.graph.graph (codeLlh m scale stats) = 0 := by
    have h1 := mt (evidence_possible m.graph n fun t k =>
      (setRow m.emissions fun i => stats t i * scale).getD (m.graph.pdf k) 0).1 hw
    have h2 : 0 ≤ evidence m.graph.graph (codeLlh m scale stats) :=
      Finset.sum_nonneg fun p _ => pathWeight_nonneg _ _ p
    exact le_antisymm (not_lt.1 h1) h2
  have : ∀ t k, statePosts m.graph.graph (codeLlh m scale stats) t k = none := fun t k =>
    C11_zero_evidence_is_nan m.graph.graph (codeLlh m scale stats) hev t k
  simp only [this]
  rw [List.ofFn_const, List.ofFn_const]
  rfl

theorem stateProb_bounds (g : LGraph) (n : ℕ) (llh : Fin (n + 1) → Fin (g.last + 1) → ℝ)
    (hw : ∃ w, Possible g w ∧ w.length = n + 1) (t : Fin (n + 1)) :
    (∀ k, 0 ≤ stateProb g.graph (fun t k => ((llh t k : ℝ) : LogR)) t k
      ∧ stateProb g.graph (fun t k => ((llh t k : ℝ) : LogR)) t k ≤ 1)
      ∧ ∑ k, stateProb g.graph (fun t k => ((llh t k : ℝ) : LogR)) t k = 1 := by
  have hev := (evidence_possible g n llh).2 hw
  obtain ⟨q, h1, h2, h3⟩ := C11_state_posteriors_sum_to_one g.graph _ hev t
  have : q = stateProb g.graph (fun t k => ((llh t k : ℝ) : LogR)) t := by
    funext k
    have := C11_state_posterior_is_marginal g.graph _ hev t k
    rw [h1] at this
    exact Option.some.inj this
  rw [← this]
  exact ⟨h2, h3⟩

/-- Only Normals: the posteriors are those of the scaled log-likelihoods. -/
theorem codeLlh_normals (m : PModel d) (hp : ∀ k, m.graph.pdf k < (m.emissions.map Member.size).sum) (base scale : ℝ)
    (hs : ∀ mem ∈ m.emissions, ∃ nat, mem = .normals base nat) (n : ℕ) (stats : Fin (n + 1) → Fin d → ℝ)
    (t : Fin (n + 1)) (k : Fin (m.graph.last + 1)) :
    stateProb m.graph.graph (codeLlh m scale stats) t k = stateProb m.graph.graph (scaledLlh m scale (n + 1) stats) t k := by
  refine stateProb_shift _ _ _ (fun _ => (1 - scale) * base) (fun t k => ?_) t k
  unfold codeLlh scaledLlh
  rw [setRow_scale base scale _ hs, getD_map _ _ 0 _ _ (by rw [setRow_length]; exact hp k)]
  exact WithBot.coe_add _ _

/-! ## The command -/

theorem postNames_ok (utts : Option (List (List String))) (dataset : List (String × UttStats d)) (names : List String)
    (h : Requested utts dataset names) : postNames utts dataset = .ok names := by
  unfold Requested at h
  unfold postNames
  cases utts with
  | none => dsimp only at h ⊢; rw [h]
  | some ls =>
    dsimp only at h ⊢
    induction h with
    | nil => rfl
    | @cons l name ls names h1 h2 ih =>
      cases l with
      | nil => cases h1
      | cons t l =>
        cases h1
        rw [Eval.listComp, ih]

theorem postLoop_ok (m : PModel d) (scale : ℝ) (state log : Bool) (dataset : List (String × UttStats d)) (names : List String)
    (s : PostState)
    (hok : ∀ name ∈ names, ∀ x, dictGet dataset name = .ok x → ∃ f, fileOf m scale state log x = .ok f) :
    (postLoop m scale state log dataset names s).2 = none
      ∧ (postLoop m scale state log dataset names s).1.count = s.count + (names.filter (· ∈ dataset.map Prod.fst)).length
      ∧ ∀ name, (∀ x, name ∈ names → dictGet dataset name = .ok x → ∃ f, fileOf m scale state log x = .ok f
          ∧ dictGet (postLoop m scale state log dataset names s).1.files name = .ok f)
        ∧ ((name ∉ names ∨ name ∉ dataset.map Prod.fst) →
          dictGet (postLoop m scale state log dataset names s).1.files name = dictGet s.files name) := by
  induction names generalizing s with
  | nil => simp [postLoop]
  | cons name names ih =>
    have hok' := fun n hn => hok n (List.mem_cons_of_mem _ hn)
    by_cases hm : name ∈ dataset.map Prod.fst
    · obtain ⟨x, hx⟩ := (HInit.dictGet_isOk dataset name).2 hm
      obtain ⟨f, hf⟩ := hok name List.mem_cons_self x hx
      have he : postLoop m scale state log dataset (name :: names) s
          = postLoop m scale state log dataset names ⟨dictSet s.files name f, s.count + 1⟩ := by
        simp only [postLoop, hx, hf]
      rw [he]
      obtain ⟨i1, i2, i3⟩ := ih ⟨dictSet s.files name f, s.count + 1⟩ hok'
      refine ⟨i1, ?_, fun n => ⟨fun y hy hd => ?_, fun hn => ?_⟩⟩
      · rw [i2, List.filter_cons_of_pos (by simpa using hm), List.length_cons]
        dsimp only; omega
      · by_cases hn : n ∈ names
        · exact (i3 n).1 y hn hd
        · have : n = name := (List.mem_cons.1 hy).resolve_right hn
          subst this
          rw [hx] at hd
          have := Except.ok.inj hd
          subst this
          refine ⟨f, hf, ?_⟩
          rw [(i3 n).2 (Or.inl hn)]
          exact HInit.dictGet_set_self _ _ _
      · have hne : n ≠ name := by
          rintro rfl
          rcases hn with hn | hn
          · exact hn List.mem_cons_self
          · exact hn hm
        rw [(i3 n).2 (hn.imp (fun h h' => h (List.mem_cons_of_mem _ h')) id)]
        exact HInit.dictGet_set_other _ _ _ _ hne
    · have he : postLoop m scale state log dataset (name :: names) s = postLoop m scale state log dataset names s := by
        cases hx : dictGet dataset name with
        | ok x => exact absurd ((HInit.dictGet_isOk dataset name).1 ⟨x, hx⟩) hm
        | error e => simp only [postLoop, hx]
      rw [he]
      obtain ⟨i1, i2, i3⟩ := ih s hok'
      refine ⟨i1, ?_, fun n => ⟨fun y hy hd => ?_, fun hn => ?_⟩⟩
      · rw [i2, List.filter_cons_of_neg (by simpa using hm)]
      · have : n ∈ dataset.map Prod.fst := (HInit.dictGet_isOk dataset n).1 ⟨y, hd⟩
        refine (i3 n).1 y ((List.mem_cons.1 hy).resolve_left ?_) hd
        rintro rfl
        exact hm this
      · exact (i3 n).2 (hn.imp (fun h h' => h (List.mem_cons_of_mem _ h')) id)

end Verif.PostCmd
