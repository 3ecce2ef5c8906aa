import Verif.Lemmas.PostCmd
import Verif.Lemmas.Eval

/-!
# Properties: posteriors of the states and of the units (C155)
-/

namespace Verif.PostCmd

open Verif Verif.Spec Verif.Graph Verif.Props Verif.DecodeCmd Verif.Pipeline Verif.Decode

variable {d : ℕ}

theorem holds_state (m : PModel d) (scale : ℝ) (x : UttStats d) (f : List (List NFloat))
    (h : posteriors m scale x = .ok f) : fileOf m scale true false x = .ok f := by
  simp [fileOf, h, toPhones]

theorem slice_range (f : ℕ → ℝ) (n e x : ℕ) (hx : x ≤ n) :
    sliceSum ((List.range n).map fun k => ((f k : ℝ) : NFloat)) e x = ((∑ k ∈ Finset.Ico e x, f k : ℝ) : NFloat) := by
  induction x with
  | zero => simp [sliceSum]
  | succ x ih =>
    by_cases hex : e ≤ x
    · rw [sliceSum_succ_aux _ e x hex ((f x : ℝ) : NFloat) (by
        rw [List.getElem?_map, List.getElem?_range (by omega)]; rfl), ih (by omega), Finset.sum_Ico_succ_top hex]
      exact (WithTop.coe_add _ _).symm
    · rw [Finset.Ico_eq_empty (by omega)]
      unfold sliceSum
      rw [List.drop_eq_nil_of_le (by simp; omega)]
      rfl

theorem lookup_map {α β : Type} (l : List (String × α)) (hn : (l.map Prod.fst).Nodup) (x : α → β) (p : String × α)
    (hp : p ∈ l) : (l.map fun p => (p.1, x p.2)).lookup p.1 = some (x p.2) := by
  induction l with
  | nil => cases hp
  | cons a l ih =>
    rw [List.map_cons, List.nodup_cons] at hn
    rw [List.map_cons, List.lookup_cons]
    rcases List.mem_cons.1 hp with rfl | hp
    · simp
    · have : p.1 ≠ a.1 := by
        intro h
        exact hn.1 (h ▸ List.mem_map.2 ⟨p, hp, rfl⟩)
      rw [beq_eq_false_iff_ne.2 this]
      exact ih hn.2 hp

theorem ofFn_range {α : Type} (n : ℕ) (f : Fin n → α) (g : ℕ → α) (h : ∀ k, f k = g k.1) :
    List.ofFn f = (List.range n).map g := by
  rw [show f = fun k : Fin n => g k.1 from funext h]
  refine List.ext_getElem (by simp) fun i h1 h2 => by simp

/-- The entry and exit pdfs of the units of an inventory. -/
theorem entry_exit_pdfs {F : Type} [Field F] [LT F] (hmms : List (String × Graph F)) (n : ℕ) (h : Inventory hmms n) :
    ∃ E X : Graph F → ℕ, entryExit hmms ([], []) = .ok (hmms.map fun p => (p.1, some (E p.2)), hmms.map fun p => (p.1, some (X p.2)))
      ∧ ∀ p ∈ hmms, X p.2 < n ∧ ∀ w, Accepts p.2 w → w.head? = some (E p.2) ∧ w.getLast? = some (X p.2) := by
  have hex : ∀ p ∈ hmms, ∃ e x : ℕ, firstPdf p.2 = .ok (some e) ∧ lastPdf p.2 = .ok (some x)
      ∧ ∀ w, Accepts p.2 w → w.head? = some e ∧ w.getLast? = some x := by
    rintro ⟨u, g⟩ hp
    obtain ⟨topo, m, f, rfl, h1, h2⟩ := h.units _ hp
    obtain ⟨e, x, q1, q2, q3, q4, q5⟩ := unit_word topo m f h1 h2
    exact ⟨e, x, q1, q2, fun w hw => ⟨(q5 w hw).1, (q5 w hw).2.1⟩⟩
  let E : Graph F → ℕ := fun g => match firstPdf g with | .ok (some e) => e | _ => 0
  let X : Graph F → ℕ := fun g => match lastPdf g with | .ok (some e) => e | _ => 0
  have hE : ∀ (g : Graph F) (e : ℕ), firstPdf g = .ok (some e) → E g = e := by
    intro g e hg
    simp only [E, hg]
  have hX : ∀ (g : Graph F) (e : ℕ), lastPdf g = .ok (some e) → X g = e := by
    intro g e hg
    simp only [X, hg]
  refine ⟨E, X, ?_, fun p hp => ?_⟩
  · rw [entryExit_map (fun g => some (E g)) (fun g => some (X g)) hmms (by
      intro p hp
      obtain ⟨e, x, q1, q2, -⟩ := hex p hp
      rw [q1, q2, hE _ _ q1, hX _ _ q2]
      exact ⟨rfl, rfl⟩) h.names ([], []) (by simp) (by simp)]
    rfl
  · obtain ⟨e, x, q1, q2, q3⟩ := hex p hp
    rw [hE _ _ q1, hX _ _ q2]
    refine ⟨?_, q3⟩
    -- the exit pdf is one of the unit
    have hm : x ∈ hmms.flatMap (fun p => p.2.states.filterMap Prod.snd) := by
      refine List.mem_flatMap.2 ⟨p, hp, ?_⟩
      unfold lastPdf at q2
      split at q2
      · cases q2
      · split at q2
        · cases q2
        · rename_i o ho
          have := Except.ok.inj q2
          subst this
          unfold Graph.pdfOf at ho
          obtain ⟨l1, l2, hl, -⟩ := List.lookup_eq_some_iff.1 ho
          exact List.mem_filterMap.2 ⟨(_, some x), by rw [hl]; exact List.mem_append_right _ List.mem_cons_self, rfl⟩
      · cases q2
    rw [h.pdfs] at hm
    exact List.mem_range.1 hm

end Verif.PostCmd

namespace Verif.Props

open Verif Verif.Spec Verif.Graph Verif.DecodeCmd Verif.Pipeline Verif.Decode Verif.PostCmd

variable {d : ℕ}

/-! ## The posteriors of the states -/

/-- **C155 (scale, Normals).** When all the emissions are Normals and the graph allows a path with as many states as there
are frames, the file of an utterance with `--state` has, for every frame and every state of the graph, the
probability of this state at this frame when the log-likelihoods are multiplied by the acoustic scale. -/
theorem C155_scaled_partial (m : PModel d) (hp : ∀ k, m.graph.pdf k < (m.emissions.map Member.size).sum) (base scale : ℝ)
    (hs : ∀ mem ∈ m.emissions, ∃ nat, mem = .normals base nat) (n : ℕ) (stats : Fin (n + 1) → Fin d → ℝ)
    (hw : ∃ w, Possible m.graph w ∧ w.length = n + 1) :
    ∃ f, fileOf m scale true false ⟨n + 1, stats⟩ = .ok f
      ∧ Holds f (stateProb m.graph.graph (scaledLlh m scale (n + 1) stats)) := by
  refine ⟨_, holds_state _ _ _ _ (posteriors_possible m hp scale n stats hw), ?_⟩
  unfold Holds
  simp only [codeLlh_normals m hp base scale hs n stats]

/-- **C155 (no scale).** Without an acoustic scale this holds for all emissions. -/
theorem C155_unscaled (m : PModel d) (hp : ∀ k, m.graph.pdf k < (m.emissions.map Member.size).sum) (n : ℕ)
    (stats : Fin (n + 1) → Fin d → ℝ) (hw : ∃ w, Possible m.graph w ∧ w.length = n + 1) :
    ∃ f, fileOf m 1 true false ⟨n + 1, stats⟩ = .ok f
      ∧ Holds f (stateProb m.graph.graph (scaledLlh m 1 (n + 1) stats)) := by
  refine ⟨_, holds_state _ _ _ _ (posteriors_possible m hp 1 n stats hw), ?_⟩
  have : codeLlh m 1 stats = scaledLlh m 1 (n + 1) stats := by
    funext t k
    unfold codeLlh scaledLlh
    simp only [mul_one, one_mul]
  rw [this]
  rfl

/-- **C155 (distribution).** Whatever the emissions and the scale, the numbers of a frame are probabilities which sum to
one. -/
theorem C155_distribution (m : PModel d) (hp : ∀ k, m.graph.pdf k < (m.emissions.map Member.size).sum) (scale : ℝ) (n : ℕ)
    (stats : Fin (n + 1) → Fin d → ℝ) (hw : ∃ w, Possible m.graph w ∧ w.length = n + 1) :
    ∃ f, ∃ q : Fin (n + 1) → Fin (m.graph.last + 1) → ℝ, fileOf m scale true false ⟨n + 1, stats⟩ = .ok f ∧ Holds f q
      ∧ ∀ t, (∀ k, 0 ≤ q t k ∧ q t k ≤ 1) ∧ ∑ k, q t k = 1 :=
  ⟨_, _, holds_state _ _ _ _ (posteriors_possible m hp scale n stats hw), rfl, fun t =>
    stateProb_bounds m.graph n (fun t k => (setRow m.emissions fun i => stats t i * scale).getD (m.graph.pdf k) 0) hw t⟩

/-- Two states which may follow each other. -/
noncomputable def twoGraph : CGraph 2 := ⟨fun _ => 0, fun _ => 0, fun _ _ => 0⟩

/-- The same with the pdfs 0 and 1. -/
noncomputable abbrev twoStates : LGraph := ⟨1, twoGraph, fun k => k.1⟩

theorem twoStates_possible (n : ℕ) : ∃ w, Possible twoStates w ∧ w.length = n + 1 := by
  refine ⟨(List.ofFn (fun _ : Fin (n + 1) => (0 : Fin 2))).map fun k => k.1, ⟨List.ofFn (fun _ : Fin (n + 1) => (0 : Fin 2)),
    ⟨0, ofFn_head _ _, WithBot.coe_ne_bot (a := (0 : ℝ))⟩, ?_, ⟨0, ofFn_last _ _, WithBot.coe_ne_bot (a := (0 : ℝ))⟩, rfl⟩,
    by simp⟩
  rw [List.isChain_ofFn]
  intro i hi
  exact WithBot.coe_ne_bot (a := (0 : ℝ))

/-- Two mixtures of two components: densities 1 and 3, densities 2 and 2. -/
noncomputable abbrev twoMixtures : PModel 1 :=
  ⟨twoStates, [.mixtures 0 [[(Real.log (1/2), fun _ => 0), (Real.log (1/2), fun _ => Real.log 3)],
    [(Real.log (1/2), fun _ => Real.log 2), (Real.log (1/2), fun _ => Real.log 2)]]], [], []⟩

theorem twoMixtures_pdf : ∀ k, twoMixtures.graph.pdf k < (twoMixtures.emissions.map Member.size).sum := by
  intro k
  exact k.2

/-- One frame: the posterior of a state is its share of the densities. -/
theorem twoGraph_prob (l : Fin 1 → Frame 2) (k : Fin 2) :
    stateProb twoGraph l 0 k = lexp (l 0 k) / (lexp (l 0 0) + lexp (l 0 1)) := by
  have hw : ∀ p : Fin 1 → Fin 2, pathWeight twoGraph l p = lexp (l 0 (p 0)) := by
    intro p
    simp [pathWeight, twoGraph]
  unfold stateProb
  simp only [hw]
  rw [← Equiv.sum_comp (Equiv.funUnique (Fin 1) (Fin 2)).symm, ← Equiv.sum_comp (Equiv.funUnique (Fin 1) (Fin 2)).symm]
  simp only [Equiv.funUnique_symm_apply, uniqueElim_const, Fin.sum_univ_two]
  congr 1
  fin_cases k <;> simp

/-- **C155 (negation).** With mixtures, the scale multiplies the statistics inside the mixtures: the posteriors are not
those of the scaled log-likelihoods. Two states which are equally likely get 5/9 and 4/9 with the scale 2. -/
theorem C155_scale_mixtures : ∃ f, fileOf twoMixtures 2 true false ⟨1, fun _ _ => 1⟩ = .ok f
    ∧ f = [[((5/9 : ℝ) : NFloat), ((4/9 : ℝ) : NFloat)]]
    ∧ stateProb twoMixtures.graph.graph (scaledLlh twoMixtures 2 1 fun _ _ => 1) 0 0 = 1/2
    ∧ ¬ Holds f (stateProb twoMixtures.graph.graph (scaledLlh twoMixtures 2 1 fun _ _ => 1)) := by
  have hrow : ∀ s : ℝ, setRow twoMixtures.emissions (fun _ => s)
      = [Real.log (1/2 + Real.exp (s * Real.log 3) * (1/2)), Real.log (Real.exp (s * Real.log 2) * (1/2) + Real.exp (s * Real.log 2) * (1/2))] := by
    intro s
    simp only [setRow, Member.row, affine, List.flatMap_cons, List.flatMap_nil, List.append_nil, List.map_cons,
      List.map_nil, List.sum_cons, List.sum_nil, Finset.univ_unique, Finset.sum_singleton, Real.exp_add,
      Real.exp_log (by norm_num : (0:ℝ) < 1/2), mul_zero, add_zero, Real.exp_zero, one_mul]
  have e3 : Real.exp (2 * Real.log 3) = 9 := by
    rw [two_mul, Real.exp_add, Real.exp_log (by norm_num)]; norm_num
  have e2 : Real.exp (2 * Real.log 2) = 4 := by
    rw [two_mul, Real.exp_add, Real.exp_log (by norm_num)]; norm_num
  have hc : ∀ k : Fin 2, stateProb twoMixtures.graph.graph (codeLlh twoMixtures 2 (n := 1) fun _ _ => 1) 0 k
      = if k = 0 then 5/9 else 4/9 := by
    intro k
    refine (twoGraph_prob _ k).trans ?_
    simp only [codeLlh, one_mul, hrow, e3, e2]
    fin_cases k
    all_goals
      simp
      norm_num [Real.exp_log]
  have ht : stateProb twoMixtures.graph.graph (scaledLlh twoMixtures 2 1 fun _ _ => 1) 0 0 = 1/2 := by
    refine (twoGraph_prob _ 0).trans ?_
    have h1 : setRow twoMixtures.emissions (fun _ => 1) = [Real.log 2, Real.log 2] := by
      rw [hrow, one_mul, one_mul, Real.exp_log (by norm_num), Real.exp_log (by norm_num)]
      norm_num
    have h2 : ∀ k, lexp (scaledLlh twoMixtures 2 1 (fun _ _ => 1) 0 k) = 4 := by
      intro k
      have : scaledLlh twoMixtures 2 1 (fun _ _ => 1) 0 k = ((2 * Real.log 2 : ℝ) : LogR) := by
        unfold scaledLlh
        rw [h1]
        fin_cases k <;> rfl
      rw [this, lexp_coe, e2]
    rw [h2, h2]
    norm_num
  have hf : (List.ofFn fun t : Fin 1 => List.ofFn fun k =>
      ((stateProb twoMixtures.graph.graph (codeLlh twoMixtures 2 fun _ _ => 1) t k : ℝ) : NFloat))
      = [[((5/9 : ℝ) : NFloat), ((4/9 : ℝ) : NFloat)]] := by
    rw [List.ofFn_succ, List.ofFn_zero]
    have : (List.ofFn fun k => ((stateProb twoMixtures.graph.graph (codeLlh twoMixtures 2 (n := 1) fun _ _ => 1) 0 k : ℝ) : NFloat))
        = [((5/9 : ℝ) : NFloat), ((4/9 : ℝ) : NFloat)] := by
      have h2 : twoMixtures.graph.last + 1 = 2 := rfl
      show (List.ofFn (n := 2) fun k => ((stateProb twoMixtures.graph.graph (codeLlh twoMixtures 2 (n := 1) fun _ _ => 1) 0 k : ℝ) : NFloat)) = _
      rw [List.ofFn_succ, List.ofFn_succ, List.ofFn_zero, hc, hc]
      rfl
    rw [this]
  refine ⟨_, holds_state _ _ _ _ (posteriors_possible twoMixtures twoMixtures_pdf 2 0 _ (twoStates_possible 0)), hf, ht, ?_⟩
  intro hh
  unfold Holds at hh
  rw [hf, List.ofFn_succ, List.ofFn_zero] at hh
  have h1 := (List.cons.inj hh).1
  have h2 := h1.trans (List.ofFn_succ (n := 1))
  have h3 : (5/9 : ℝ) = stateProb twoMixtures.graph.graph (scaledLlh twoMixtures 2 1 fun _ _ => 1) 0 0 :=
    WithTop.coe_injective (List.cons.inj h2).1
  rw [ht] at h3
  norm_num at h3

/-- **C155 (negation).** When the graph allows no path with as many states as there are frames, the file is made of NaN
and nothing is reported. -/
theorem C155_nan (m : PModel d) (hp : ∀ k, m.graph.pdf k < (m.emissions.map Member.size).sum) (scale : ℝ) (log : Bool)
    (n : ℕ) (stats : Fin (n + 1) → Fin d → ℝ) (hw : ¬ ∃ w, Possible m.graph w ∧ w.length = n + 1) :
    fileOf m scale true log ⟨n + 1, stats⟩ = .ok (List.replicate (n + 1) (List.replicate (m.graph.last + 1) ⊤)) := by
  unfold fileOf
  rw [posteriors_impossible m hp scale n stats hw]
  cases log
  · rfl
  · simp only [toPhones, if_true, List.map_replicate]
    rfl

/-! ## The option `--log` -/

/-- **C155 (log).** With `--log` every number `p` of the file is `log(p + 1e-5)`. -/
theorem C155_log (m : PModel d) (scale : ℝ) (state : Bool) (x : UttStats d) (f : List (List NFloat))
    (hf : fileOf m scale state false x = .ok f) :
    fileOf m scale state true x = .ok (f.map (List.map (WithTop.map fun p => Real.log (p + 1 / 100000)))) := by
  unfold fileOf at hf ⊢
  split at hf
  · cases hf
  · split at hf
    · cases hf
    · have := Except.ok.inj hf
      simp only [Bool.false_eq_true, if_false] at this
      subst this
      simp only [if_true]
      congr 2
      funext l
      congr 1
      funext p
      unfold logEps postEps
      congr 1
      funext p
      rw [add_comm]

/-- **C155 (negation).** The numbers saved with `--log` are not the logarithms of probabilities: their exponentials sum to
more than one in every frame, and the number of a state which is certain is positive. -/
theorem C155_log_excess (m : PModel d) (hp : ∀ k, m.graph.pdf k < (m.emissions.map Member.size).sum) (scale : ℝ) (n : ℕ)
    (stats : Fin (n + 1) → Fin d → ℝ) (hw : ∃ w, Possible m.graph w ∧ w.length = n + 1) :
    ∃ f, ∃ q : Fin (n + 1) → Fin (m.graph.last + 1) → ℝ, fileOf m scale true true ⟨n + 1, stats⟩ = .ok f ∧ Holds f q
      ∧ (∀ t, ∑ k, Real.exp (q t k) = 1 + (m.graph.last + 1) / 100000)
      ∧ (m.graph.last = 0 → ∀ t k, 0 < q t k) := by
  obtain ⟨f, q, h1, h2, h3⟩ := C155_distribution m hp scale n stats hw
  have hpos : ∀ t k, 0 < q t k + 1 / 100000 := fun t k => by
    have := ((h3 t).1 k).1
    positivity
  refine ⟨_, fun t k => Real.log (q t k + 1 / 100000), C155_log m scale true _ f h1, ?_, fun t => ?_, fun h0 t k => ?_⟩
  · unfold Holds at h2 ⊢
    rw [h2, List.map_ofFn]
    congr 1
    funext t
    rw [Function.comp_apply, List.map_ofFn]
    rfl
  · simp only [Real.exp_log (hpos t _)]
    rw [Finset.sum_add_distrib, (h3 t).2, Finset.sum_const, Finset.card_univ, Fintype.card_fin, nsmul_eq_mul]
    push_cast
    ring
  · refine Real.log_pos ?_
    have hq : q t k = 1 := by
      rw [← (h3 t).2]
      symm
      refine Finset.sum_eq_single k (fun j _ hj => absurd (Fin.ext ?_) hj) (fun h => absurd (Finset.mem_univ _) h)
      have := j.2
      have := k.2
      omega
    rw [hq]
    norm_num

/-! ## The units -/

/-- **C155 (units).** With the graph and the dictionaries made from an inventory of units, the states of the
graph are the pdfs in order, and column `i` of the file without `--state` is the sum of the posteriors of the pdfs of
unit `i` from its entry pdf up to its exit pdf, this last one left out. -/
theorem C155_units_partial (units : List (String × String)) (group : Option String) (hmms : List (String × Graph ℝ)) (N : ℕ)
    (h : Inventory hmms N) (hsp : ∀ u ∈ units, u.1 ∉ ["\\<s\\>", "\\</s\\>", "#1"])
    (hperm : (hmms.map Prod.fst).Perm (units.map Prod.fst)) :
    ∃ loop dg entry exit c, mkphoneloopgraph units group = .ok loop ∧ mkdecodegraph loop hmms = .ok (dg, entry, exit)
      ∧ dg.compile = .ok c ∧ ∀ g, logGraph c = .ok g → ∀ m : PModel d, m.graph = g → (m.emissions.map Member.size).sum = N →
        m.startPdf = starts entry → m.endPdf = starts exit → ∀ (scale : ℝ) (n : ℕ) (stats : Fin (n + 1) → Fin d → ℝ),
        (∃ w, Possible m.graph w ∧ w.length = n + 1) →
        ∃ fs f, ∃ q : Fin (n + 1) → ℕ → ℝ, fileOf m scale true false ⟨n + 1, stats⟩ = .ok fs
          ∧ fs = List.ofFn (fun t => (List.range N).map fun k => ((q t k : ℝ) : NFloat))
          ∧ fileOf m scale false false ⟨n + 1, stats⟩ = .ok f ∧ f.length = n + 1
          ∧ ∀ (t : Fin (n + 1)) row, f[t.1]? = some row → row.length = hmms.length ∧
            ∀ (i : ℕ) (u : String) (hmm : Graph ℝ), hmms[i]? = some (u, hmm) → ∃ e x,
              (∀ w, Accepts hmm w → w.head? = some e ∧ w.getLast? = some x)
              ∧ row[i]? = some ((∑ k ∈ Finset.Ico e x, q t k : ℝ) : NFloat) := by
  obtain ⟨E, X, h1, h2⟩ := entry_exit_pdfs hmms N h
  obtain ⟨loop, dg, entry', exit', c, d1, d2, d3, d4, -, -, hpm, -⟩ := C152_decoding units group hmms
    (hperm.nodup_iff.1 h.names) hsp hperm (inventory_good hmms N h)
  rw [h1] at d3
  obtain ⟨rfl, rfl⟩ := Prod.ext_iff.1 (Except.ok.inj d3)
  refine ⟨loop, dg, _, _, c, d1, d2, d4, ?_⟩
  rintro g hg m rfl hN hst hen scale n stats hw
  rw [h.pdfs] at hpm
  -- the states are the pdfs
  have hgr : m.graph.last + 1 = N ∧ ∀ k, m.graph.pdf k = k.1 := by
    unfold logGraph at hg
    split at hg
    · rw [hpm] at hg
      split at hg
      · cases hg
      · rename_i hne
        have hN0 : 0 < N := by
          rcases Nat.eq_zero_or_pos N with h | h
          · rw [h] at hne; exact absurd rfl hne
          · exact h
        have := Except.ok.inj hg
        rw [← this]
        dsimp only
        rw [List.length_range]
        refine ⟨by omega, fun k => ?_⟩
        have hk := k.2
        rw [List.getD_eq_getElem?_getD, List.getElem?_range (by omega)]
        rfl
    · cases hg
  have hp : ∀ k, m.graph.pdf k < (m.emissions.map Member.size).sum := by
    intro k
    rw [hgr.2, hN]
    have := k.2
    omega
  have hpost := posteriors_possible m hp scale n stats hw
  set q : Fin (n + 1) → ℕ → ℝ := fun t k => if hk : k < m.graph.last + 1 then
    stateProb m.graph.graph (codeLlh m scale stats) t ⟨k, hk⟩ else 0 with hq
  have hfs : (List.ofFn fun t => List.ofFn fun k => ((stateProb m.graph.graph (codeLlh m scale stats) t k : ℝ) : NFloat))
      = List.ofFn (fun t => (List.range N).map fun k => ((q t k : ℝ) : NFloat)) := by
    congr 1
    funext t
    rw [← hgr.1]
    refine ofFn_range _ _ _ fun k => ?_
    rw [hq]
    dsimp only
    rw [dif_pos k.2]
  rw [hfs] at hpost
  have hst' : m.startPdf = hmms.map fun p => (p.1, E p.2) := by
    rw [hst]
    unfold starts
    rw [List.filterMap_map, ← List.filterMap_eq_map]
    rfl
  have hen' : m.endPdf = hmms.map fun p => (p.1, X p.2) := by
    rw [hen]
    unfold starts
    rw [List.filterMap_map, ← List.filterMap_eq_map]
    rfl
  have hcol : ∀ t, phonePosteriors m.startPdf m.endPdf ((List.range N).map fun k => ((q t k : ℝ) : NFloat))
      = .ok (hmms.map fun p => ((∑ k ∈ Finset.Ico (E p.2) (X p.2), q t k : ℝ) : NFloat)) := by
    intro t
    unfold phonePosteriors
    rw [hst', List.mapM_map]
    refine mapM_ok_map _ _ _ fun p hp' => ?_
    rw [Function.comp_apply]
    unfold phoneColumn
    dsimp only
    rw [hen', lookup_map hmms h.names X p hp']
    dsimp only
    rw [slice_range _ N _ _ (h2 p hp').1.le]
  refine ⟨_, List.ofFn fun t => hmms.map fun p => ((∑ k ∈ Finset.Ico (E p.2) (X p.2), q t k : ℝ) : NFloat), q,
    holds_state _ _ _ _ hpost, rfl, ?_, by simp, fun t row hrow => ?_⟩
  · unfold fileOf
    rw [hpost]
    simp only [toPhones, Bool.false_eq_true, if_false]
    have := Eval.listComp_ok (phonePosteriors m.startPdf m.endPdf)
      (fun r => match phonePosteriors m.startPdf m.endPdf r with | .ok v => v | .error _ => [])
      (List.ofFn fun t => (List.range N).map fun k => ((q t k : ℝ) : NFloat)) (by
        intro r hr
        obtain ⟨t, rfl⟩ := List.mem_ofFn.1 hr
        simp only [hcol])
    rw [this, List.map_ofFn]
    dsimp only
    congr 2
    funext t
    simp only [Function.comp_apply, hcol]
  · rw [List.getElem?_ofFn, dif_pos t.2] at hrow
    have := Option.some.inj hrow
    subst this
    refine ⟨by simp, fun i u hmm hi => ⟨E hmm, X hmm, fun w hw => (h2 _ (List.mem_of_getElem? hi)).2 w hw, ?_⟩⟩
    rw [List.getElem?_map, hi]
    rfl

/-! ## The command -/

/-- **C155 (files).** When no requested utterance fails, the command saves one file for each requested utterance of the
data set and nothing else; the other files of the directory stay; the number it reports counts the requests. -/
theorem C155_files (m : PModel d) (scale : ℝ) (state log : Bool) (utts : Option (List (List String)))
    (dataset : List (String × UttStats d)) (out : List (String × List (List NFloat))) (names : List String)
    (hn : Requested utts dataset names)
    (hok : ∀ name ∈ names, ∀ x, dictGet dataset name = .ok x → ∃ f, fileOf m scale state log x = .ok f) :
    ∃ s, PostCmd.main m scale state log utts dataset out = (s, none)
      ∧ s.count = (names.filter (· ∈ dataset.map Prod.fst)).length
      ∧ (∀ name ∈ names, ∀ x, dictGet dataset name = .ok x →
          ∃ f, fileOf m scale state log x = .ok f ∧ dictGet s.files name = .ok f)
      ∧ ∀ name, (name ∉ names ∨ name ∉ dataset.map Prod.fst) → dictGet s.files name = dictGet out name := by
  obtain ⟨h1, h2, h3⟩ := postLoop_ok m scale state log dataset names ⟨out, 0⟩ hok
  refine ⟨(postLoop m scale state log dataset names ⟨out, 0⟩).1, ?_, by rw [h2]; simp, fun name hname x hx =>
    (h3 name).1 x hname hx, fun name hname => (h3 name).2 hname⟩
  unfold PostCmd.main
  rw [postNames_ok utts dataset names hn]
  exact Prod.ext rfl h1

/-- **C155 (no frames).** An utterance without frames is an `IndexError` which ends the command; the utterances before it
are saved. -/
theorem C155_no_frames (m : PModel d) (scale : ℝ) (state log : Bool) (dataset : List (String × UttStats d))
    (names : List String) (name : String) (x : UttStats d) (rest : List String) (s : PostState)
    (hok : ∀ name ∈ names, ∀ x, dictGet dataset name = .ok x → ∃ f, fileOf m scale state log x = .ok f)
    (hx : dictGet dataset name = .ok x) (h0 : x.n = 0) :
    postLoop m scale state log dataset (names ++ name :: rest) s
      = ((postLoop m scale state log dataset names s).1, some .indexError) := by
  induction names generalizing s with
  | nil =>
    obtain ⟨n, st⟩ := x
    dsimp only at h0
    subst h0
    have : fileOf m scale state log ⟨0, st⟩ = .error .indexError := by
      unfold fileOf posteriors
      split_ifs <;> rfl
    simp only [List.nil_append, postLoop, hx, this]
  | cons a names ih =>
    have hok' := fun n hn => hok n (List.mem_cons_of_mem _ hn)
    cases ha : dictGet dataset a with
    | error e => simp only [List.cons_append, postLoop, ha, ih _ hok']
    | ok y =>
      obtain ⟨f, hf⟩ := hok a List.mem_cons_self y ha
      simp only [List.cons_append, postLoop, ha, hf, ih _ hok']

/-! ## Examples -/

/-- Two Normals, in two sets. -/
noncomputable abbrev twoNormals : PModel 1 :=
  ⟨twoStates, [.normals 3 [fun _ => 1], .normals 3 [fun _ => 2]], [("a", 0), ("b", 1)], [("a", 0), ("b", 1)]⟩

theorem twoNormals_pdf : ∀ k, twoNormals.graph.pdf k < (twoNormals.emissions.map Member.size).sum := fun k => k.2

-- three frames, scale 1/2
example : ∃ f, fileOf twoNormals (1/2) true false ⟨3, fun t _ => t.1⟩ = .ok f
    ∧ Holds f (stateProb twoNormals.graph.graph (scaledLlh twoNormals (1/2) 3 fun t _ => t.1)) :=
  C155_scaled_partial twoNormals twoNormals_pdf 3 (1/2) (by simp) 2 _ (twoStates_possible 2)

example : ∃ f, fileOf twoMixtures 1 true false ⟨3, fun t _ => t.1⟩ = .ok f
    ∧ Holds f (stateProb twoMixtures.graph.graph (scaledLlh twoMixtures 1 3 fun t _ => t.1)) :=
  C155_unscaled twoMixtures twoMixtures_pdf 2 _ (twoStates_possible 2)

example : ∃ f, ∃ q : Fin 3 → Fin 2 → ℝ, fileOf twoMixtures 5 true false ⟨3, fun t _ => t.1⟩ = .ok f ∧ Holds f q
      ∧ ∀ t, (∀ k, 0 ≤ q t k ∧ q t k ≤ 1) ∧ ∑ k, q t k = 1 :=
  C155_distribution twoMixtures twoMixtures_pdf 5 2 _ (twoStates_possible 2)

/-- Two states from left to right, of the same Normals. -/
noncomputable abbrev leftRightModel : PModel 1 := { twoNormals with graph := ⟨1, demoGraph, fun k => k.1⟩ }

-- one frame for two states
example : fileOf leftRightModel 1 true true ⟨1, fun _ _ => 1⟩ = .ok [[⊤, ⊤]] := by
  refine C155_nan leftRightModel (fun k => k.2) 1 true 0 _ ?_
  rintro ⟨w, ⟨q, ⟨a, ha, ia⟩, -, ⟨b, hb, fb⟩, rfl⟩, hl⟩
  rw [List.length_map] at hl
  obtain ⟨c, rfl⟩ := List.length_eq_one_iff.1 hl
  rw [← Option.some.inj ha] at ia
  rw [← Option.some.inj hb] at fb
  have h01 : ∀ c : Fin 2, demoGraph.init c = ⊥ ∨ demoGraph.final c = ⊥ := by
    intro c
    fin_cases c
    · exact Or.inr rfl
    · exact Or.inl rfl
  rcases h01 c with h | h
  · exact ia h
  · exact fb h

example : ∃ f, ∃ q : Fin 3 → Fin 2 → ℝ, fileOf twoNormals 5 true true ⟨3, fun t _ => t.1⟩ = .ok f ∧ Holds f q
    ∧ ∀ t, ∑ k, Real.exp (q t k) = 1 + (1 + 1) / 100000 := by
  obtain ⟨f, q, h1, h2, h3, -⟩ := C155_log_excess twoNormals twoNormals_pdf 5 2 (fun t _ => t.1) (twoStates_possible 2)
  exact ⟨f, q, h1, h2, fun t => by simpa using h3 t⟩

/-- One state. -/
noncomputable abbrev oneState : PModel 1 :=
  ⟨⟨0, ⟨fun _ => 0, fun _ => 0, fun _ _ => 0⟩, fun _ => 0⟩, [.normals 0 [fun _ => 1]], [("a", 0)], [("a", 0)]⟩

-- the only state is certain, and its number is positive
example : ∃ f, ∃ q : Fin 1 → Fin 1 → ℝ, fileOf oneState 1 true true ⟨1, fun _ _ => 1⟩ = .ok f ∧ Holds f q
    ∧ 0 < q 0 0 := by
  obtain ⟨f, q, h1, h2, -, h3⟩ := C155_log_excess oneState (fun k => by simp [Member.size]) 1 0 (fun _ _ => 1)
    ⟨[0], ⟨[0], ⟨0, rfl, WithBot.coe_ne_bot (a := (0 : ℝ))⟩, by simp, ⟨0, rfl, WithBot.coe_ne_bot (a := (0 : ℝ))⟩, rfl⟩, rfl⟩
  exact ⟨f, q, h1, h2, h3 rfl 0 0⟩

/-- C155, error branch: a state of the decoding graph whose index is not that of a density of the emissions raises
`IndexError`, whatever the features and the options. -/
theorem C155_index_error (m : PModel d) (k : Fin (m.graph.last + 1)) (hk : (m.emissions.map Member.size).sum ≤ m.graph.pdf k)
    (scale : ℝ) (state log : Bool) (x : UttStats d) : fileOf m scale state log x = .error .indexError := by
  have h : posteriors m scale x = .error .indexError := by
    unfold posteriors
    rw [if_pos]
    exact List.any_eq_true.2 ⟨k, List.mem_finRange k, decide_eq_true hk⟩
  unfold fileOf
  rw [h]

/-- Two Normals, and a state whose index is two. -/
example : fileOf { twoNormals with graph := ⟨1, demoGraph, fun k => 2 * k.1⟩ } 1 true true ⟨1, fun _ _ => 1⟩ = .error .indexError :=
  C155_index_error { twoNormals with graph := ⟨1, demoGraph, fun k => 2 * k.1⟩ } (1 : Fin 2) (by simp [Member.size]) 1 true true _

/-- **C155 (negation).** Unit `b` of the demo inventory has a single state: whatever the features, its posterior in the
file is zero in every frame, and that of `a` leaves out the second of its two states. -/
theorem C155_units_lost : ∃ loop dg entry exit c g, mkphoneloopgraph [("a", "sp"), ("b", "sp")] none = .ok loop
    ∧ mkdecodegraph loop demoInv = .ok (dg, entry, exit) ∧ dg.compile = .ok c ∧ logGraph c = .ok g
    ∧ ∀ (scale : ℝ) (stats : Fin 5 → Fin 1 → ℝ), ∃ fs f, ∃ q : Fin 5 → ℕ → ℝ,
      fileOf ⟨g, [.normals 0 [fun _ => 1, fun _ => 2, fun _ => 3]], starts entry, starts exit⟩ scale true false ⟨5, stats⟩
        = .ok fs
      ∧ fs = List.ofFn (fun t => [((q t 0 : ℝ) : NFloat), ((q t 1 : ℝ) : NFloat), ((q t 2 : ℝ) : NFloat)])
      ∧ fileOf ⟨g, [.normals 0 [fun _ => 1, fun _ => 2, fun _ => 3]], starts entry, starts exit⟩ scale false false ⟨5, stats⟩
        = .ok f
      ∧ f = List.ofFn (fun t => [((q t 0 : ℝ) : NFloat), 0]) := by
  obtain ⟨loop, dg, entry, exit, c, h1, h2, h3, h4⟩ := C155_units_partial (d := 1) [("a", "sp"), ("b", "sp")] none demoInv 3
    demoInv_ok (by decide +kernel) (List.Perm.refl _)
  obtain ⟨loop', dg', entry', exit', c', d1, d2, -, d4, hcn, -, -, hcw⟩ := C152_decoding [("a", "sp"), ("b", "sp")] none
    demoInv (by decide +kernel) (by decide +kernel) (List.Perm.refl _) (inventory_good demoInv 3 demoInv_ok)
  rw [h1] at d1
  have := Except.ok.inj d1
  subst this
  rw [h2] at d2
  obtain ⟨e1, e2⟩ := Prod.ext_iff.1 (Except.ok.inj d2)
  dsimp only at e1
  subst e1
  rw [h3] at d4
  have := Except.ok.inj d4
  subst this
  have hsp : Spells c [0, 1, 2, 0, 1] := (hcw _ (by simp)).2 ⟨["a", "b", "a"], _, ⟨by decide, by simp⟩, demo_spoken, rfl⟩
  obtain ⟨g, hg, -, hgw⟩ := logGraph_possible c hcn _ hsp
  refine ⟨loop, dg, entry, exit, c, g, h1, h2, h3, hg, fun scale stats => ?_⟩
  obtain ⟨fs, f, q, k1, k2, k3, k4, k5⟩ := h4 g hg ⟨g, [.normals 0 [fun _ => 1, fun _ => 2, fun _ => 3]], starts entry, starts exit⟩
    rfl rfl rfl rfl scale 4 stats ⟨_, (hgw _).2 hsp, rfl⟩
  refine ⟨fs, f, q, k1, k2, k3, ?_⟩
  refine List.ext_getElem (by rw [k4]; simp) fun t ht ht' => ?_
  rw [List.getElem_ofFn]
  have ht5 : t < 5 := by omega
  obtain ⟨r1, r2⟩ := k5 ⟨t, ht5⟩ f[t] (List.getElem?_eq_getElem ht)
  obtain ⟨e, x, w1, v1⟩ := r2 0 _ _ rfl
  obtain ⟨e', x', w2, v2⟩ := r2 1 _ _ rfl
  have a1 := w1 _ demo_a
  have a2 := w2 _ demo_b
  simp only [List.head?_cons, List.getLast?_cons, List.getLast?_nil, Option.getD_none, Option.getD_some, Option.some.injEq] at a1 a2
  obtain ⟨rfl, rfl⟩ := a1
  obtain ⟨rfl, rfl⟩ := a2
  rw [show Finset.Ico 0 1 = {0} from rfl, Finset.sum_singleton] at v1
  rw [Finset.Ico_self, Finset.sum_empty] at v2
  have hl : f[t].length = 2 := r1
  refine List.ext_getElem (by rw [hl]; rfl) fun i hi hi' => ?_
  have : i = 0 ∨ i = 1 := by rw [hl] at hi; omega
  rcases this with rfl | rfl
  · rw [List.getElem?_eq_getElem hi] at v1
    exact Option.some.inj v1
  · rw [List.getElem?_eq_getElem hi] at v2
    exact Option.some.inj v2

-- utterance `u` is asked for twice and `v` is not in the data set; the file `old` stays
example : ∃ s f, PostCmd.main twoNormals 1 true false (some [["u"], ["v", "x"], ["u"]]) [("u", ⟨3, fun t _ => t.1⟩)]
    [("old", [])] = (s, none) ∧ s.count = 2 ∧ dictGet s.files "u" = .ok f ∧ Holds f
      (stateProb twoNormals.graph.graph (scaledLlh twoNormals 1 3 fun t _ => t.1)) ∧ dictGet s.files "old" = .ok [] := by
  obtain ⟨f, hf, hh⟩ := C155_unscaled twoNormals twoNormals_pdf 2 (fun t _ => (t.1 : ℝ)) (twoStates_possible 2)
  have hd : ∀ name (x : UttStats 1), dictGet [("u", (⟨3, fun t _ => t.1⟩ : UttStats 1))] name = .ok x →
      x = ⟨3, fun t _ => t.1⟩ := by
    intro name x hx
    unfold dictGet at hx
    by_cases hn : name = "u"
    · subst hn
      simp at hx
      exact hx.symm
    · simp [Ne.symm hn] at hx
  obtain ⟨s, h1, h2, h3, h4⟩ := C155_files twoNormals 1 true false (some [["u"], ["v", "x"], ["u"]])
    [("u", ⟨3, fun t _ => t.1⟩)] [("old", [])] ["u", "v", "u"] (by simp [Requested]) (by
      intro name _ x hx
      rw [hd name x hx]
      exact ⟨f, hf⟩)
  obtain ⟨f', h5, h6⟩ := h3 "u" (by simp) _ rfl
  rw [hf] at h5
  have := Except.ok.inj h5
  subst this
  exact ⟨s, f, h1, by rw [h2]; decide +kernel, h6, hh, by rw [h4 "old" (by simp)]; rfl⟩

-- the second utterance is empty
example : (postLoop twoNormals 1 true false [("e", ⟨0, fun _ _ => 0⟩)] (["w"] ++ "e" :: ["z"]) ⟨[], 0⟩).2
    = some .indexError := by
  rw [C155_no_frames twoNormals 1 true false [("e", ⟨0, fun _ _ => 0⟩)] ["w"] "e" ⟨0, fun _ _ => 0⟩ ["z"] ⟨[], 0⟩ (by
    intro name hn x hx
    rw [List.mem_singleton] at hn
    subst hn
    exact absurd hx (by simp [dictGet])) rfl rfl]

end Verif.Props
