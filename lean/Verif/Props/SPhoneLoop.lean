import Verif.Lemmas.SPhoneLoop
import Verif.Props.Units
import Verif.Model.Inference
import Mathlib.Tactic.FieldSimp
import Mathlib.Tactic.Linarith

/-!
# C107 – C110: the creation of a subspace phone-loop
-/

namespace Verif.Props

open Verif ModelSet Pipeline SPL SPLSpec Spec

/-! ## C107: the initial statistics -/

section stats

variable {S K Q : ℕ}

/-- C107: the statistics of a trained parameter are recovered: prior plus statistics is the posterior,
and after an update with learning rate one they are the statistics given to it. -/
theorem C107_param_stats {F : Type} [Field F] {V : Type} [AddCommGroup V] [Module F V] (p : Param V) :
    p.prior + paramStats p.post p.prior = p.post ∧
      paramStats (p.update (1 : F)).post p.prior = p.stats := by
  unfold paramStats Param.update
  constructor
  · abel
  · simp only [one_smul]
    abel

variable {F : Type} [Field F] [CharZero F]

/-- C107, what holds for the weights: all the components of all the states of the unit get the same
number of frames, a third of the frames of the unit divided by the number of components; with three
states the frames of the unit are conserved. -/
theorem C107_weights_partial (stats : Fin S → Fin (K + 1) → F) :
    (∀ s c, componentFrames (initWeightsStats stats) s c = frames stats / (3 * (K + 1))) ∧
      (S = 3 → frames (initWeightsStats stats) = frames stats) := by
  have hK : ((K : F) + 1) ≠ 0 := by exact_mod_cast Nat.succ_ne_zero K
  constructor
  · intro s c
    unfold componentFrames initWeightsStats frames
    by_cases hc : c = Fin.last K
    · have : ∀ i : Fin K, i.castSucc ≠ Fin.last K := fun i => (Fin.castSucc_lt_last i).ne
      simp only [hc, if_true, this, if_false, Finset.sum_const, Finset.card_univ, Fintype.card_fin,
        nsmul_eq_mul, Nat.cast_add, Nat.cast_one]
      field_simp
      ring
    · simp [hc]
  · intro hS
    unfold frames initWeightsStats
    simp only [if_true, Finset.sum_const, Finset.card_univ, Fintype.card_fin, nsmul_eq_mul, hS]
    push_cast
    field_simp

/-- C107, the violation for the weights: the frames of a unit are multiplied by a third of its number of
states. They are only conserved with three states, or without frames. -/
theorem C107_weights_scaled (stats : Fin S → Fin (K + 1) → F) :
    frames (initWeightsStats stats) = S / 3 * frames stats ∧
      (frames (initWeightsStats stats) = frames stats ↔ S = 3 ∨ frames stats = 0) := by
  have h : frames (initWeightsStats stats) = S / 3 * frames stats := by
    unfold frames initWeightsStats
    simp only [if_true, Finset.sum_const, Finset.card_univ, Fintype.card_fin, nsmul_eq_mul]
    ring
  refine ⟨h, ?_⟩
  rw [h]
  constructor
  · intro h1
    by_cases h0 : frames stats = 0
    · exact Or.inr h0
    · left
      have h2 : (S : F) / 3 = 1 := by
        have := mul_right_cancel₀ h0 (h1.trans (one_mul _).symm)
        exact this
      have h3 : (S : F) = 3 := by
        field_simp at h2
        exact h2
      exact_mod_cast h3
  · rintro (h1 | h1)
    · have : (S : F) = 3 := by exact_mod_cast h1
      rw [this]
      field_simp
    · rw [h1, mul_zero]

/-- The weights read by the initialisation are uniform, as the pdf-vector of a new subspace parameter is
zero. -/
theorem C107_new_weights_uniform (K : ℕ) :
    newWeightsValue (K + 1) = .ok (List.replicate (K + 1) (1 / ((K : ℝ) + 1))) := by
  have hK : (0 : ℝ) < (K : ℝ) + 1 := by positivity
  have hl : Dists.catLogNorm (List.replicate K 0) = Real.log ((K : ℝ) + 1) := by
    unfold Dists.catLogNorm
    rcases K with _ | K
    · simp
    · rw [List.replicate_succ]
      simp only
      rw [← List.replicate_succ, List.map_replicate, List.sum_replicate, Real.exp_zero, nsmul_eq_mul,
        mul_one, Real.exp_log (by positivity), add_comm]
  unfold newWeightsValue Dists.catParams
  simp only [List.length_replicate, Nat.succ_ne_zero, if_false, List.dropLast_replicate,
    Nat.add_sub_cancel, hl, List.map_replicate, Real.exp_zero, one_mul, Real.exp_neg,
    Real.exp_log hK]
  rw [List.replicate_succ', one_div]

/-- C107, what holds for the Gaussians: with uniform weights all the components of a unit get the same
statistics; with a single state the statistics of the unit are conserved. -/
theorem C107_means_partial (stats : Fin (S * (K + 1)) → Fin Q → F) (q : Fin Q) :
    (∀ k, initMeansStats (fun _ _ => 1 / ((K : F) + 1)) stats k q = total stats q / (K + 1)) ∧
      (S = 1 → total (initMeansStats (fun _ _ => 1 / ((K : F) + 1)) stats) q = total stats q) := by
  have hK : ((K : F) + 1) ≠ 0 := by exact_mod_cast Nat.succ_ne_zero K
  have h1 : ∀ k, initMeansStats (fun _ _ => 1 / ((K : F) + 1)) stats k q = total stats q / (K + 1) := by
    intro k
    unfold initMeansStats total
    rw [← Finset.sum_mul]
    ring
  refine ⟨h1, fun hS => ?_⟩
  unfold total at h1 ⊢
  simp only [h1, Finset.sum_const, Finset.card_univ, Fintype.card_fin, nsmul_eq_mul, hS]
  push_cast
  field_simp

/-- C107, the violation for the Gaussians: the weights are not normalised over the states (line 45 has no
effect), so the statistics of a unit are multiplied by its number of states. -/
theorem C107_means_scaled (stats : Fin (S * (K + 1)) → Fin Q → F) (q : Fin Q) :
    total (initMeansStats (fun _ _ => 1 / ((K : F) + 1)) stats) q = S * total stats q ∧
      (total (initMeansStats (fun _ _ => 1 / ((K : F) + 1)) stats) q = total stats q ↔
        S = 1 ∨ total stats q = 0) := by
  have hK : ((K : F) + 1) ≠ 0 := by exact_mod_cast Nat.succ_ne_zero K
  have h : total (initMeansStats (fun _ _ => 1 / ((K : F) + 1)) stats) q = S * total stats q := by
    have h1 := (C107_means_partial stats q).1
    rw [total]
    simp only [h1, Finset.sum_const, Finset.card_univ, Fintype.card_fin, nsmul_eq_mul]
    push_cast
    field_simp
  refine ⟨h, ?_⟩
  rw [h]
  constructor
  · intro h1
    by_cases h0 : total stats q = 0
    · exact Or.inr h0
    · left
      have := mul_right_cancel₀ h0 (h1.trans (one_mul _).symm)
      exact_mod_cast this
  · rintro (h1 | h1)
    · have : (S : F) = 1 := by exact_mod_cast h1
      rw [this, one_mul]
    · rw [h1, mul_zero]

/-- C107, the violation, both parts together: when the Gaussians of a unit hold in column `q` (up to the
factor `z`) the frames its weights hold, the Gaussians of the initialised unit have three times the frames
of its weights, whatever the number of states. -/
theorem C107_frames_disagree (w : Fin S → Fin (K + 1) → F) (stats : Fin (S * (K + 1)) → Fin Q → F)
    (q : Fin Q) (z : F) (h : total stats q = z * frames w) (k : Fin (S * (K + 1))) (s : Fin S)
    (c : Fin (K + 1)) :
    initMeansStats (fun _ _ => 1 / ((K : F) + 1)) stats k q =
      z * (3 * componentFrames (initWeightsStats w) s c) := by
  have hK : ((K : F) + 1) ≠ 0 := by exact_mod_cast Nat.succ_ne_zero K
  rw [(C107_means_partial stats q).1, (C107_weights_partial w).1, h]
  field_simp

end stats

/-- Two states with two components, 12 and 18 frames: the 30 frames become 20 in the weights (10 per
state) and 60 in the Gaussians. -/
example :
    frames (initWeightsStats (fun (s : Fin 2) (c : Fin 2) => (if s = 0 then (if c = 0 then 5 else 12)
      else (if c = 0 then 6 else 18) : ℚ))) = 20 ∧
    total (initMeansStats (fun (_ : Fin 2) (_ : Fin 2) => (1 / 2 : ℚ))
      (fun (k : Fin (2 * 2)) (_ : Fin 1) => if k = 0 then 5 else if k = 1 then 7 else if k = 2 then 6
        else 12)) 0 = 60 := by
  decide +kernel

/-! ## C108: the labels -/

/-- C108: the labels are, one after the other, the numbers of the classes of the units of the phone-loop
which are in the class file; the other ones are zero, and there is an error when there are too many. -/
theorem C108_labels_exact (file : List (String × String)) (units : List String) (nunits : ℕ) :
    mkLabels (file.map fun p => [p.1, p.2]) units nunits =
      if (units.filterMap (classOf file)).length ≤ nunits then
        .ok ((units.filterMap (classOf file)).map (classRank file) ++
          List.replicate (nunits - (units.filterMap (classOf file)).length) 0)
      else .error .indexError := by
  obtain ⟨u, c, h1, h2, h3, h4⟩ := readClasses_ok file [] []
  unfold mkLabels
  rw [h1]
  have := labelsLoop_eq file u (classIndex c) (by simpa using h2)
    (fun d hd => classIndex_get file c (h4 (by simp)) (by simpa using h3) d hd) units [] nunits
  simpa using this

/-- C108, what holds: when the units of the group are consecutive, all in the class file, and no other
unit of the phone-loop is in it, label `i` is the number of the class of unit `i`; it is smaller than the
number of classes, and two units have the same label exactly when they have the same class. -/
theorem C108_labels_partial (file : List (String × String)) (before group after : List String)
    (hb : ∀ u ∈ before, classOf file u = none) (ha : ∀ u ∈ after, classOf file u = none)
    (hg : ∀ u ∈ group, (classOf file u).isSome) :
    ∃ labels : List ℕ, mkLabels (file.map fun p => [p.1, p.2]) (before ++ group ++ after) group.length =
        .ok labels ∧ labels.length = group.length ∧
      (∀ (i : ℕ) u c, group[i]? = some u → classOf file u = some c → labels[i]? = some (classRank file c)) ∧
      (∀ l ∈ labels, l < (classes file).length) ∧
      (∀ (i j : ℕ) u v, group[i]? = some u → group[j]? = some v →
        (labels[i]? = labels[j]? ↔ classOf file u = classOf file v)) := by
  have hnone : ∀ us : List String, (∀ u ∈ us, classOf file u = none) → us.filterMap (classOf file) = [] := by
    intro us hus
    rw [List.filterMap_eq_nil_iff]
    exact hus
  have hfm : (before ++ group ++ after).filterMap (classOf file) = group.filterMap (classOf file) := by
    rw [List.filterMap_append, List.filterMap_append, hnone _ hb, hnone _ ha, List.nil_append,
      List.append_nil]
  have hmap : ∃ cs : List String, group.map (classOf file) = cs.map some ∧
      group.filterMap (classOf file) = cs := by
    clear hfm
    induction group with
    | nil => exact ⟨[], rfl, rfl⟩
    | cons g group ih =>
      obtain ⟨cs, h1, h2⟩ := ih fun u hu => hg u (List.mem_cons_of_mem _ hu)
      obtain ⟨c, hc⟩ := Option.isSome_iff_exists.1 (hg g List.mem_cons_self)
      exact ⟨c :: cs, by rw [List.map_cons, List.map_cons, h1, hc],
        by rw [List.filterMap_cons_some hc, h2]⟩
  obtain ⟨cs, h1, h2⟩ := hmap
  have hlen : cs.length = group.length := by
    have := congrArg List.length h1
    simpa using this.symm
  have hget : ∀ (i : ℕ) u c, group[i]? = some u → classOf file u = some c → cs[i]? = some c := by
    intro i u c hu hc
    have := congrArg (fun l : List (Option String) => l[i]?) h1
    simp only [List.getElem?_map, hu, Option.map_some, hc] at this
    cases hcs : cs[i]? with
    | none => rw [hcs] at this; simp at this
    | some d => rw [hcs] at this; simpa using this.symm
  have hmem : ∀ c ∈ cs, c ∈ classes file := by
    intro c hc
    have : some c ∈ group.map (classOf file) := by rw [h1]; exact List.mem_map.2 ⟨c, hc, rfl⟩
    obtain ⟨u, -, hu⟩ := List.mem_map.1 this
    unfold classOf at hu
    rw [Option.map_eq_some_iff] at hu
    obtain ⟨p, hp, hp2⟩ := hu
    unfold classes
    rw [List.mem_dedup]
    exact List.mem_map.2 ⟨p, List.mem_reverse.1 (List.mem_of_find?_eq_some hp), hp2⟩
  have hlt : ∀ c d, c ∈ classes file → c < d → classRank file c < classRank file d := by
    intro c d hc hcd
    unfold classRank
    have hsub : ((classes file).filter fun x => decide (x < c)) ++ [c] ⊆
        (classes file).filter fun x => decide (x < d) := by
      intro x hx
      rw [List.mem_append, List.mem_filter, decide_eq_true_eq, List.mem_singleton] at hx
      rw [List.mem_filter, decide_eq_true_eq]
      rcases hx with ⟨h1, h2⟩ | rfl
      · exact ⟨h1, lt_trans h2 hcd⟩
      · exact ⟨hc, hcd⟩
    have hnd : (((classes file).filter fun x => decide (x < c)) ++ [c]).Nodup := by
      rw [List.nodup_append]
      refine ⟨(List.nodup_dedup _).filter _, by simp, ?_⟩
      intro a ha b hb
      rw [List.mem_filter, decide_eq_true_eq] at ha
      rw [List.mem_singleton] at hb
      rw [hb]
      exact ne_of_lt ha.2
    have := (List.subperm_of_subset hnd hsub).length_le
    rw [List.length_append, List.length_singleton] at this
    omega
  have hinj : ∀ c d, c ∈ classes file → d ∈ classes file → classRank file c = classRank file d → c = d := by
    intro c d hc hd h
    rcases lt_trichotomy c d with h' | h' | h'
    · exact absurd h (hlt c d hc h').ne
    · exact h'
    · exact absurd h.symm (hlt d c hd h').ne
  refine ⟨cs.map (classRank file), ?_, by rw [List.length_map, hlen], ?_, ?_, ?_⟩
  · rw [C108_labels_exact, hfm, h2, if_pos hlen.le, hlen, Nat.sub_self, List.replicate_zero,
      List.append_nil]
  · intro i u c hu hc
    rw [List.getElem?_map, hget i u c hu hc]
    rfl
  · intro l hl
    obtain ⟨c, hc, rfl⟩ := List.mem_map.1 hl
    unfold classRank
    rw [← Nat.add_one_le_iff]
    have hsub : ((classes file).filter fun x => decide (x < c)) ++ [c] ⊆ classes file := by
      intro x hx
      rw [List.mem_append, List.mem_filter, List.mem_singleton] at hx
      rcases hx with ⟨h, -⟩ | rfl
      · exact h
      · exact hmem _ hc
    have hnd : (((classes file).filter fun x => decide (x < c)) ++ [c]).Nodup := by
      rw [List.nodup_append]
      refine ⟨(List.nodup_dedup _).filter _, by simp, ?_⟩
      intro a ha b hb
      rw [List.mem_filter, decide_eq_true_eq] at ha
      rw [List.mem_singleton] at hb
      rw [hb]
      exact ne_of_lt ha.2
    have := (List.subperm_of_subset hnd hsub).length_le
    rw [List.length_append, List.length_singleton] at this
    exact this
  · intro i j u v hu hv
    obtain ⟨c, hc⟩ := Option.isSome_iff_exists.1 (hg u (List.mem_of_getElem? hu))
    obtain ⟨d, hd⟩ := Option.isSome_iff_exists.1 (hg v (List.mem_of_getElem? hv))
    have hci := hget i u c hu hc
    have hdj := hget j v d hv hd
    rw [List.getElem?_map, List.getElem?_map, hci, hdj, hc, hd, Option.map_some, Option.map_some,
      Option.some_inj, Option.some_inj]
    constructor
    · exact hinj c d (hmem _ (List.mem_of_getElem? hci)) (hmem _ (List.mem_of_getElem? hdj))
    · rintro rfl
      rfl

/-- C108, the violation: when the first unit of the group is not in the class file, the labels are
shifted: unit `a` gets the class of unit `b`, and unit `b` the first class, which is not its own. A unit of
another group in the file shifts them too, and may raise `IndexError`; a line without exactly two fields
raises `ValueError`. -/
theorem C108_missing_unit_shifts :
    mkLabels [["b", "vowel"], ["x", "nasal"]] ["sil", "a", "b"] 2 = .ok [1, 0] ∧
    mkLabels [["a", "nasal"], ["b", "vowel"], ["sil", "vowel"]] ["sil", "a", "b"] 2 =
      .error .indexError ∧
    mkLabels [["b", "vowel", "x"]] ["sil", "a", "b"] 2 = .error .valueError := by
  decide +kernel

/-- The classes are numbered in alphabetic order; `sil` is not in the class file. -/
example : ∃ labels : List ℕ, mkLabels ([("a", "vowel"), ("b", "nasal")].map fun p => [p.1, p.2])
      (["sil"] ++ ["a", "b"] ++ []) 2 = .ok labels ∧ labels[0]? = some 1 ∧ labels[1]? = some 0 := by
  obtain ⟨labels, h1, -, h3, -⟩ := C108_labels_partial [("a", "vowel"), ("b", "nasal")] ["sil"] ["a", "b"] []
    (by decide +kernel) (by simp) (by decide +kernel)
  refine ⟨labels, h1, ?_, ?_⟩
  · rw [h3 0 "a" "vowel" rfl (by decide +kernel)]
    decide +kernel
  · rw [h3 1 "b" "nasal" rfl (by decide +kernel)]
    decide +kernel

/-! ## C109: the units of the subspace are the units of the phone-loop -/

theorem unitsFrom_blocks {α β : Type} (C S : ℕ) (hC : 0 < C) (hS : 0 < S)
    (pre blocks : List (List (α × List β))) (hpre : ∀ b ∈ pre, b.length = S)
    (hb : ∀ b ∈ blocks, b.length = S) (hc : ∀ b ∈ pre ++ blocks, ∀ x ∈ b, x.2.length = C) :
    unitsFrom (ofMixtures (pre ++ blocks).flatten) S pre.length blocks.length =
      .ok (blocks.map ofMixtures) := by
  induction blocks generalizing pre with
  | nil => rfl
  | cons b blocks ih =>
    have hlen : ∀ l : List (List (α × List β)), (∀ b ∈ l, b.length = S) → l.flatten.length = l.length * S := by
      intro l hl
      induction l with
      | nil => simp
      | cons a l ihl =>
        rw [List.flatten_cons, List.length_append, hl a List.mem_cons_self,
          ihl fun b hb => hl b (List.mem_cons_of_mem _ hb), List.length_cons, Nat.succ_mul, Nat.add_comm]
    have hbS := hb b List.mem_cons_self
    have hne : (pre ++ b :: blocks).flatten ≠ [] := by
      intro h
      have h2 := congrArg List.length h
      rw [hlen _ (by
        intro x hx
        rcases List.mem_append.1 hx with hx | hx
        · exact hpre x hx
        · exact hb x hx), List.length_nil, List.length_append, List.length_cons] at h2
      have : 0 < (pre.length + (blocks.length + 1)) * S := Nat.mul_pos (by omega) hS
      omega
    have hflat : (pre ++ b :: blocks).flatten = pre.flatten ++ b ++ blocks.flatten := by
      simp [List.append_assoc]
    have hslice := C45_slice_partial C hC (pre ++ b :: blocks).flatten hne (by
      intro x hx
      obtain ⟨y, hy, hxy⟩ := List.mem_flatten.1 hx
      exact hc y hy x hxy) (some ((pre.length * S : ℕ) : ℤ)) (((pre.length + 1) * S : ℕ) : ℤ)
    have hpy : pySlice ⟨some ((pre.length * S : ℕ) : ℤ), some (((pre.length + 1) * S : ℕ) : ℤ), none⟩
        (pre ++ b :: blocks).flatten = .ok b := by
      have hL : (pre ++ b :: blocks).flatten.length = pre.length * S + S + blocks.length * S := by
        rw [hflat, List.length_append, List.length_append, hlen pre hpre, hbS,
          hlen blocks fun x hx => hb x (List.mem_cons_of_mem _ hx)]
      have hcl : ∀ n : ℕ, n ≤ (pre ++ b :: blocks).flatten.length →
          clampIdx (pre ++ b :: blocks).flatten.length (n : ℤ) = n := by
        intro n hn
        unfold clampIdx
        rw [if_neg (by omega), Int.toNat_natCast, min_eq_left hn]
      unfold pySlice
      simp only [Option.getD_none, show ¬ ((1 : ℤ) ≤ 0) by omega, if_false,
        show (1 : ℤ).toNat = 1 from rfl, everyNth_one]
      rw [hcl _ (by rw [hL, Nat.add_assoc]; exact Nat.le_add_right _ _),
        hcl _ (by rw [hL, Nat.succ_mul]; exact Nat.le_add_right _ _), hflat,
        flatten_block S pre.flatten pre.length (hlen pre hpre) b hbS]
    rw [hpy] at hslice
    have := ih (pre ++ [b]) (by
      intro x hx
      rcases List.mem_append.1 hx with hx | hx
      · exact hpre x hx
      · rw [List.mem_singleton.1 hx]; exact hbS) (fun x hx => hb x (List.mem_cons_of_mem _ hx)) (by
        intro x hx
        exact hc x (by simpa [List.append_assoc] using hx))
    rw [List.append_assoc, List.singleton_append, List.length_append, List.length_singleton] at this
    rw [List.length_cons]
    unfold unitsFrom
    rw [hslice]
    simp only [Except.map, this, List.map_cons]

/-- Exact form of the creation of the units of a group: unit `k` has the pdfs following those of the `k`
units before it. -/
theorem makeGroup_exact {F : Type} [LT F] [Zero F] (topo : List (Arc F)) (n : ℕ) (h : ValidTopo topo n)
    (names : List String) (first : ℕ) (us : List (String × Graph F)) (tot : ℕ) (hn : names.Nodup)
    (hd : ∀ x ∈ names, x ∉ us.map Prod.fst) :
    ∃ tot', makeGroup topo names ((first : ℤ), us, tot) =
      .ok (((first + names.length * (n - 2) : ℕ) : ℤ),
        us ++ names.mapIdx (fun k name => (name, unitHmm topo n (first + k * (n - 2)))), tot') := by
  induction names generalizing first us tot with
  | nil => exact ⟨tot, by simp [makeGroup]⟩
  | cons name names ih =>
    rw [List.nodup_cons] at hn
    simp only [makeGroup, createUnitGraph_valid topo n first h]
    rw [dictSet_new _ _ _ (hd name List.mem_cons_self)]
    obtain ⟨tot', h1⟩ := ih (first + (n - 2)) (us ++ [(name, unitHmm topo n first)])
      (tot + countEmitting (unitHmm topo n first)) hn.2 (by
        intro x hx hmem
        simp only [List.map_append, List.map_cons, List.map_nil, List.mem_append,
          List.mem_singleton] at hmem
        rcases hmem with hmem | rfl
        · exact hd x (List.mem_cons_of_mem _ hx) hmem
        · exact hn.1 hx)
    refine ⟨tot', ?_⟩
    rw [h1]
    congr 2
    · push_cast
      rw [List.length_cons]
      push_cast
      ring
    · rw [List.mapIdx_cons, List.append_assoc, List.singleton_append]
      congr 1
      rw [Nat.zero_mul, Nat.add_zero]
      congr 1
      congr 1
      congr 1
      funext k x
      rw [Nat.succ_mul, Nat.add_assoc, Nat.add_comm (n - 2)]

/-- C109, `shmm mksphoneloop`: the units of the subspace model are the units of the group, in the order of
their creation: with a valid topology of `n` states, `S = n - 2` of them emitting, and the emissions of the
group being those of its units one after the other, the command gets exactly the emissions of each unit.
They are the ones of its HMM: `mkphones` gives state `j + 1` of unit `k` of the group the pdf number
`first + (k * S + j)`, and emission `k * S + j` of the group is emission `j` of unit `k`. -/
theorem C109_units {F α β : Type} [LT F] [Zero F] (conf : List (String × List (Arc F))) (i : ℕ)
    (group : String) (topo : List (Arc F)) (n C : ℕ) (hC : 0 < C) (hi : conf[i]? = some (group, topo))
    (hfirst : ∀ j c, j < i → conf[j]? = some c → c.1 ≠ group) (hv : ValidTopo topo n)
    (modelsets : List (MixSet α β)) (blocks : List (List (α × List β)))
    (hm : modelsets[i]? = some (ofMixtures blocks.flatten)) (hb : ∀ b ∈ blocks, b.length = n - 2)
    (hc : ∀ b ∈ blocks, ∀ x ∈ b, x.2.length = C)
    (names : List String) (hn : names.Nodup)
    (first : ℕ) (us : List (String × Graph F)) (tot : ℕ) (hd : ∀ x ∈ names, x ∉ us.map Prod.fst) :
    groupUnitsOf conf group modelsets = .ok (blocks.map ofMixtures) ∧
      ∃ last tot' hmms, makeGroup topo names ((first : ℤ), us, tot) = .ok (last, us ++ hmms, tot') ∧
        hmms.map Prod.fst = names ∧
        ∀ (k : ℕ) name b, names[k]? = some name → blocks[k]? = some b → ∀ j < n - 2,
          ∃ hmm, hmms[k]? = some (name, hmm) ∧
            (j + 1, some (first + (k * (n - 2) + j))) ∈ hmm.states ∧
            blocks.flatten[k * (n - 2) + j]? = b[j]? := by
  have hS : 0 < n - 2 := by have := hv.size; omega
  have hlen : ∀ l : List (List (α × List β)), (∀ b ∈ l, b.length = n - 2) →
      l.flatten.length = l.length * (n - 2) := by
    intro l hl
    induction l with
    | nil => simp
    | cons a l ihl =>
      rw [List.flatten_cons, List.length_append, hl a List.mem_cons_self,
        ihl fun b hb => hl b (List.mem_cons_of_mem _ hb), List.length_cons, Nat.succ_mul, Nat.add_comm]
  constructor
  · have hidx : conf.findIdx? (fun c => decide (c.1 = group)) = some i := by
      rw [List.findIdx?_eq_some_iff_getElem]
      obtain ⟨hlt, he⟩ := List.getElem?_eq_some_iff.1 hi
      refine ⟨hlt, by rw [he]; simp, ?_⟩
      intro j hj
      have := hfirst j conf[j] hj (List.getElem?_eq_getElem _)
      simpa using this
    unfold groupUnitsOf
    rw [hidx]
    simp only [hi, hm]
    have hnu : nUnits (ofMixtures blocks.flatten).cats.length (nStates topo) = .ok blocks.length := by
      unfold nUnits ofMixtures
      rw [nStates_valid topo n hv, if_neg hS.ne']
      simp only [List.length_map, hlen blocks hb]
      rw [Nat.mul_div_cancel _ hS]
    rw [hnu]
    simp only [iterateUnits, nStates_valid topo n hv]
    have := unitsFrom_blocks C (n - 2) hC hS [] blocks (by simp) hb (by simpa using hc)
    simpa using this
  · obtain ⟨tot', h1⟩ := makeGroup_exact topo n hv names first us tot hn hd
    refine ⟨_, tot', _, h1, ?_, ?_⟩
    · refine List.ext_getElem? fun k => ?_
      rw [List.getElem?_map, List.getElem?_mapIdx]
      cases names[k]? <;> rfl
    · intro k name b hk hbk j hj
      refine ⟨unitHmm topo n (first + k * (n - 2)), ?_, ?_, ?_⟩
      · rw [List.getElem?_mapIdx, hk]
        rfl
      · unfold unitHmm
        simp only [List.mem_map, List.mem_range]
        refine ⟨j + 1, by omega, ?_⟩
        rw [if_neg (by omega), Nat.add_sub_cancel, Nat.add_assoc]
      · obtain ⟨hkl, hkb⟩ := List.getElem?_eq_some_iff.1 hbk
        have hsplit : blocks = blocks.take k ++ b :: blocks.drop (k + 1) := by
          rw [← hkb, ← List.drop_eq_getElem_cons hkl, List.take_append_drop]
        have htl : (blocks.take k).flatten.length = k * (n - 2) := by
          rw [hlen _ fun x hx => hb x (List.mem_of_mem_take hx), List.length_take, min_eq_left hkl.le]
        conv_lhs => rw [hsplit]
        rw [List.flatten_append, List.getElem?_append_right (by omega), htl, Nat.add_sub_cancel_left,
          List.flatten_cons, List.getElem?_append_left]
        rw [hb b (List.mem_of_getElem? hbk)]
        exact hj

/-- Two units with two states of one component each: the command gets the states of each unit. -/
example : groupUnitsOf [("sp", topoSil)] "sp" [(⟨["a1", "a2", "b1", "b2"], ["1", "2", "3", "4"]⟩ :
      MixSet String String)] = .ok [⟨["a1", "a2"], ["1", "2"]⟩, ⟨["b1", "b2"], ["3", "4"]⟩] :=
  (C109_units [("sp", topoSil)] 0 "sp" topoSil 4 1 (by norm_num) rfl (by omega) topoSil_valid
    [⟨["a1", "a2", "b1", "b2"], ["1", "2", "3", "4"]⟩]
    [[("a1", ["1"]), ("a2", ["2"])], [("b1", ["3"]), ("b2", ["4"])]] rfl (by decide +kernel)
    (by decide +kernel) ["a", "b"] (by decide +kernel) 0 [] 0 (by simp)).1

/-- C109, the errors: an unknown group raises `ValueError`, a topology with a single arc into state 1 or 0
gives no state per unit and raises `ZeroDivisionError`. -/
theorem C109_errors {F α β : Type} (conf : List (String × List (Arc F))) (group : String)
    (modelsets : List (MixSet α β)) :
    ((∀ c ∈ conf, c.1 ≠ group) → groupUnitsOf conf group modelsets = .error .valueError ∧
      hierUnitsOf conf group modelsets = .error .valueError) ∧
    (∀ topo m ms, conf = [(group, topo)] → (∀ a ∈ topo, a.stop ≤ 1) → modelsets = m :: ms →
      groupUnitsOf conf group modelsets = .error .zeroDivision) := by
  constructor
  · intro h
    have : conf.findIdx? (fun c => decide (c.1 = group)) = none := by
      rw [List.findIdx?_eq_none_iff]
      intro c hc
      simpa using h c hc
    unfold groupUnitsOf hierUnitsOf
    rw [this]
    exact ⟨rfl, rfl⟩
  · rintro topo m ms rfl h rfl
    have h0 : nStates topo = 0 := by
      have := foldl_max_le topo 0 0 (le_refl _) fun a ha => by have := h a ha; omega
      exact Nat.le_zero.1 this
    unfold groupUnitsOf
    simp [h0, nUnits]

/-- C109, what holds for `hshmm mksphoneloop`: when the group asked for has more emissions than each of the
other groups, its units are used. -/
theorem C109_hier_partial {F α β : Type} (conf : List (String × List (Arc F))) (group : String)
    (modelsets : List (MixSet α β)) (i : ℕ) (m : MixSet α β)
    (hidx : conf.findIdx? (fun c => c.1 = group) = some i) (hm : modelsets[i]? = some m)
    (hmax : ∀ (j : ℕ) m', j ≠ i → modelsets[j]? = some m' → m'.cats.length < m.cats.length) :
    hierUnitsOf conf group modelsets = groupUnitsOf conf group modelsets := by
  have hfold : ∀ (ms : List (MixSet α β)) (best : MixSet α β),
      (best = m ∨ (best.cats.length < m.cats.length ∧ m ∈ ms)) →
      (∀ x ∈ ms, x = m ∨ x.cats.length < m.cats.length) →
      ms.foldl (fun best g => if best.cats.length < g.cats.length then g else best) best = m := by
    intro ms
    induction ms with
    | nil =>
      intro best hbest _
      rcases hbest with h | ⟨-, h⟩
      · exact h
      · simp at h
    | cons x ms ih =>
      intro best hbest hall
      rw [List.foldl_cons]
      refine ih _ ?_ fun y hy => hall y (List.mem_cons_of_mem _ hy)
      rcases hbest with rfl | ⟨hlt, hmem⟩
      · left
        rcases hall x List.mem_cons_self with rfl | h
        · simp
        · rw [if_neg (by omega)]
      · rcases hall x List.mem_cons_self with rfl | h
        · left
          rw [if_pos hlt]
        · right
          constructor
          · split <;> assumption
          · rcases List.mem_cons.1 hmem with rfl | h'
            · exact absurd h (lt_irrefl _)
            · exact h'
  have hbig : largestGroup modelsets = .ok m := by
    cases modelsets with
    | nil => simp at hm
    | cons x ms =>
      have hall : ∀ y ∈ x :: ms, y = m ∨ y.cats.length < m.cats.length := by
        intro y hy
        obtain ⟨j, hj⟩ := List.getElem?_of_mem hy
        by_cases hji : j = i
        · left
          rw [hji, hm] at hj
          exact (Option.some.inj hj).symm
        · exact Or.inr (hmax j y hji hj)
      unfold largestGroup
      dsimp only
      rw [hfold (x :: ms) x ?_ hall]
      rcases hall x List.mem_cons_self with h | h
      · exact Or.inl h
      · exact Or.inr ⟨h, List.mem_of_getElem? hm⟩
  have hci : ∃ c, conf[i]? = some c := by
    have := (List.findIdx?_eq_some_iff_getElem.1 hidx).1
    exact ⟨_, List.getElem?_eq_getElem this⟩
  obtain ⟨c, hc⟩ := hci
  unfold hierUnitsOf groupUnitsOf
  rw [hidx]
  simp only [hc, hm, hbig]

/-- C109, the violation for `hshmm mksphoneloop`: the option `--unit-group` does not choose the emissions.
The group `sp` has two units with one state each, `sil` one unit with three states; the command makes three
units out of the states of `sil`. -/
theorem C109_hier_wrong_group :
    let one : List (Arc ℚ) := [⟨0, 1, 1⟩, ⟨1, 1, 1/2⟩, ⟨1, 2, 1/2⟩]
    let three : List (Arc ℚ) := [⟨0, 1, 1⟩, ⟨1, 2, 1⟩, ⟨2, 3, 1⟩, ⟨3, 4, 1⟩]
    let sil : MixSet String String := ⟨["s0", "s1", "s2"], ["g0", "g1", "g2"]⟩
    let sp : MixSet String String := ⟨["a", "b"], ["ga", "gb"]⟩
    hierUnitsOf [("sil", three), ("sp", one)] "sp" [sil, sp] =
      .ok [⟨["s0"], ["g0"]⟩, ⟨["s1"], ["g1"]⟩, ⟨["s2"], ["g2"]⟩] ∧
    groupUnitsOf [("sil", three), ("sp", one)] "sp" [sil, sp] = .ok [⟨["a"], ["ga"]⟩, ⟨["b"], ["gb"]⟩] := by
  decide +kernel

/-! ## C110: the option `--posteriors` -/

/-- C110, the violation: with the option `--posteriors`, whatever the file contains, the command fails,
and the file is emptied; the other files are unchanged. -/
theorem C110_posteriors_destroyed {T : Type} (empty : T) (files : Files T) (path : String) :
    (loadPosteriors empty files (some path)).2 = .error .valueError ∧
      (loadPosteriors empty files (some path)).1 path = some empty ∧
      ∀ f, f ≠ path → (loadPosteriors empty files (some path)).1 f = files f := by
  unfold loadPosteriors openFile loadFile
  refine ⟨by simp, by simp, fun f hf => by simp [hf]⟩

/-- C110, what holds: without the option no file is touched. -/
theorem C110_without_option_partial {T : Type} (empty : T) (files : Files T) :
    loadPosteriors empty files none = (files, .ok none) := rfl

example : (loadPosteriors "" (fun f => if f = "p" then some "data" else none) (some "p")).1 "p" = some "" :=
  (C110_posteriors_destroyed _ _ _).2.1

end Verif.Props
