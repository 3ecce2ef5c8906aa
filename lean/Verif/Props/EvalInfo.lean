import Verif.Lemmas.EvalInfo
import Verif.Props.Eval

/-!
# C114–C115: normalised mutual information and entropy of transcriptions
-/

namespace Verif.Props

open Verif Pipeline Scoring Eval EvalSpec Filter Topology

/-! ## C114: normalised mutual information -/

/-- The counts written by `maxoverlap_mapping.py` are valid. -/
theorem C114_counts (ref hyp : Transcript) (h : ∀ p ∈ ref, p.1 ∈ hyp.map Prod.fst) :
    ∃ m, overlapCounts hyp ref [] = .ok m ∧ ValidCounts m ∧ ∀ u p, tableOf m u p = overlap ref hyp u p := by
  have h' : ∀ p ∈ ref, hyp.lookup p.1 ≠ none := fun p hp hn => (lookup_none hyp p.1).1 hn (h p hp)
  refine ⟨_, overlapCounts_eq hyp ref [] h', foldl_bump_valid _ [] ⟨by simp, by simp, by simp⟩, fun u p => ?_⟩
  have := cnt_foldl (framePairs ref hyp) [] u p
  unfold cnt at this
  unfold tableOf
  rw [this]
  simp [overlap]

/-- As the smoothing constant vanishes, the number printed tends to the textbook normalised mutual
information in percent of the table: between 0 and 100, 0 exactly when unit and phone are independent, 100
exactly when the units determine the phones (and, for the new version, also the reverse). -/
theorem C114_limit (m : Counts) (old : Bool) (h : ValidCounts m)
    (hd : 2 ≤ (phones m).card ∨ (old = false ∧ 2 ≤ (units m).card)) :
    ∃ L, Tendsto (fun eps => nmiWith eps old m) (𝓝[>] 0) (𝓝 L) ∧
      L = nmiSpec (units m) (phones m) (fun u p => (tableOf m u p : ℝ)) old ∧
      0 ≤ L ∧ L ≤ 100 ∧
      (L = 0 ↔ Indep (units m) (phones m) fun u p => (tableOf m u p : ℝ)) ∧
      (L = 100 ↔ Determines (units m) (phones m) (fun u p => (tableOf m u p : ℝ)) ∧
        (old = true ∨ Determined (units m) (phones m) fun u p => (tableOf m u p : ℝ))) := by
  have hm : m ≠ [] := by
    rintro rfl
    simp [phones, units] at hd
  have hg := good_of_valid m h hm 0 le_rfl
  simp only [zero_add] at hg
  have hdiv := nmi_divisor hg old hd
  refine ⟨_, ?_, rfl, nmiSpec_range hg old hdiv⟩
  refine (nmi_tendsto hg old hdiv).congr fun eps => ?_
  unfold nmiWith
  rw [countsMatrix_eq eps m h]
  rfl

/-- Two units, two phones, one-to-one: both versions tend to 100. -/
example (old : Bool) : Tendsto (fun eps => nmiWith eps old [("x", [("a", 2)]), ("y", [("b", 1)])]) (𝓝[>] 0)
    (𝓝 100) := by
  have hv : ValidCounts [("x", [("a", 2)]), ("y", [("b", 1)])] :=
    ⟨by decide +kernel, by decide +kernel, by decide +kernel⟩
  obtain ⟨L, h1, -, -, -, -, h2⟩ := C114_limit _ old hv (Or.inl (by decide +kernel))
  rw [h2.2 ⟨?_, Or.inr ?_⟩] at h1
  · exact h1
  · have : ∀ u ∈ units [("x", [("a", 2)]), ("y", [("b", 1)])], ∀ p ∈ phones [("x", [("a", 2)]), ("y", [("b", 1)])],
        ∀ q ∈ phones [("x", [("a", 2)]), ("y", [("b", 1)])],
        tableOf [("x", [("a", 2)]), ("y", [("b", 1)])] u p ≠ 0 →
        tableOf [("x", [("a", 2)]), ("y", [("b", 1)])] u q ≠ 0 → p = q := by decide +kernel
    intro u hu p hp q hq h3 h4
    exact this u hu p hp q hq (Nat.cast_ne_zero.1 h3) (Nat.cast_ne_zero.1 h4)
  · have : ∀ p ∈ phones [("x", [("a", 2)]), ("y", [("b", 1)])], ∀ u ∈ units [("x", [("a", 2)]), ("y", [("b", 1)])],
        ∀ v ∈ units [("x", [("a", 2)]), ("y", [("b", 1)])],
        tableOf [("x", [("a", 2)]), ("y", [("b", 1)])] u p ≠ 0 →
        tableOf [("x", [("a", 2)]), ("y", [("b", 1)])] v p ≠ 0 → u = v := by decide +kernel
    intro p hp u hu v hv h3 h4
    exact this p hp u hu v hv (Nat.cast_ne_zero.1 h3) (Nat.cast_ne_zero.1 h4)

/-- Proportional rows: 0. -/
example (old : Bool) : Tendsto (fun eps => nmiWith eps old [("x", [("a", 2), ("b", 4)]), ("y", [("b", 2), ("a", 1)])])
    (𝓝[>] 0) (𝓝 0) := by
  have hv : ValidCounts [("x", [("a", 2), ("b", 4)]), ("y", [("b", 2), ("a", 1)])] :=
    ⟨by decide +kernel, by decide +kernel, by decide +kernel⟩
  obtain ⟨L, h1, -, -, -, h2, -⟩ := C114_limit _ old hv (Or.inl (by decide +kernel))
  rw [h2.2 ?_] at h1
  · exact h1
  · have hu : units [("x", [("a", 2), ("b", 4)]), ("y", [("b", 2), ("a", 1)])] = {"x", "y"} := by decide +kernel
    have hp : phones [("x", [("a", 2), ("b", 4)]), ("y", [("b", 2), ("a", 1)])] = {"a", "b"} := by decide +kernel
    rw [hu, hp]
    have e1 : tableOf [("x", [("a", 2), ("b", 4)]), ("y", [("b", 2), ("a", 1)])] "x" "a" = 2 := by decide +kernel
    have e2 : tableOf [("x", [("a", 2), ("b", 4)]), ("y", [("b", 2), ("a", 1)])] "x" "b" = 4 := by decide +kernel
    have e3 : tableOf [("x", [("a", 2), ("b", 4)]), ("y", [("b", 2), ("a", 1)])] "y" "a" = 1 := by decide +kernel
    have e4 : tableOf [("x", [("a", 2), ("b", 4)]), ("y", [("b", 2), ("a", 1)])] "y" "b" = 2 := by decide +kernel
    have n1 : ("x" : String) ≠ "y" := by decide
    have n2 : ("a" : String) ≠ "b" := by decide
    intro u hu p hp
    simp only [Finset.mem_insert, Finset.mem_singleton] at hu hp
    rcases hu with rfl | rfl <;> rcases hp with rfl | rfl <;>
      simp only [tot, Finset.sum_pair n1, Finset.sum_pair n2, e1, e2, e3, e4] <;> norm_num

/-- The old version never prints more than 100. -/
theorem C114_never_above (m : Counts) (h : ValidCounts m) (hd : 2 ≤ (phones m).card)
    (hsize : (tot (units m) (phones m) fun u p => (tableOf m u p : ℝ)) +
      (units m).card * (phones m).card ≤ 1e36) : nmi true m ≤ 100 := by
  have hm : m ≠ [] := by
    rintro rfl
    simp [phones] at hd
  have he : (0 : ℝ) < 1e-37 := by norm_num
  have hg := good_of_valid m h hm 1e-37 he.le
  have hc := condEnt_nonneg hg
  have hl : 0 < Real.log 2 := Real.log_pos (by norm_num)
  have hpos : 0 < hY 1e-37 (auSet m) (phoneSet m) (countsMatrix 1e-37 m) := by
    rw [countsMatrix_eq _ m h]
    refine hY_pos hg _ he hd fun p hp => ?_
    have h1 : (1 : ℝ) ≤ ∑ u ∈ units m, (1e-37 + (tableOf m u p : ℝ)) := by
      obtain ⟨x, hx, hp⟩ := List.mem_flatMap.1 (List.mem_toFinset.1 hp)
      obtain ⟨y, hy, rfl⟩ := List.mem_map.1 hp
      have h2 : x.1 ∈ units m := List.mem_toFinset.2 (List.mem_map_of_mem hx)
      refine le_trans ?_ (Finset.single_le_sum (f := fun u => (1e-37 : ℝ) + (tableOf m u y.1 : ℝ))
        (fun u _ => by positivity) h2)
      rw [tableOf_mem m h hx hy]
      have : (1 : ℝ) ≤ y.2 := by exact_mod_cast h.pos x hx y hy
      linarith
    refine lt_of_lt_of_le ?_ h1
    have h3 : (tot (units m) (phones m) fun u p => 1e-37 + (tableOf m u p : ℝ)) =
        (tot (units m) (phones m) fun u p => (tableOf m u p : ℝ)) +
          (units m).card * (phones m).card * 1e-37 := by
      unfold tot
      simp only [Finset.sum_add_distrib, Finset.sum_const, nsmul_eq_mul]
      ring
    rw [h3]
    have h4 : (0 : ℝ) ≤ (units m).card * (phones m).card := by positivity
    nlinarith
  unfold nmi nmiWith nmiMatrix
  rw [if_pos rfl, div_le_iff₀ hpos, countsMatrix_eq _ m h]
  have : 0 ≤ hYgX (auSet m) (phoneSet m) fun u p => 1e-37 + (tableOf m u p : ℝ) := by
    rw [hYgX_eq]; exact div_nonneg hc hl.le
  linarith

example : nmi true [("x", [("a", 2), ("b", 1)]), ("y", [("b", 1)])] ≤ 100 := by
  refine C114_never_above _ ⟨by decide +kernel, by decide +kernel, by decide +kernel⟩ (by decide +kernel) ?_
  have hu : units [("x", [("a", 2), ("b", 1)]), ("y", [("b", 1)])] = {"x", "y"} := by decide +kernel
  have hp : phones [("x", [("a", 2), ("b", 1)]), ("y", [("b", 1)])] = {"a", "b"} := by decide +kernel
  have e1 : tableOf [("x", [("a", 2), ("b", 1)]), ("y", [("b", 1)])] "x" "a" = 2 := by decide +kernel
  have e2 : tableOf [("x", [("a", 2), ("b", 1)]), ("y", [("b", 1)])] "x" "b" = 1 := by decide +kernel
  have e3 : tableOf [("x", [("a", 2), ("b", 1)]), ("y", [("b", 1)])] "y" "a" = 0 := by decide +kernel
  have e4 : tableOf [("x", [("a", 2), ("b", 1)]), ("y", [("b", 1)])] "y" "b" = 1 := by decide +kernel
  rw [hu, hp, Finset.card_pair (by decide), Finset.card_pair (by decide)]
  have n1 : ("x" : String) ≠ "y" := by decide
  have n2 : ("a" : String) ≠ "b" := by decide
  simp only [tot, Finset.sum_pair n1, Finset.sum_pair n2, e1, e2, e3, e4]
  norm_num

/-! ## C115: entropy of a transcription -/

/-- The transcription read is the collapsed one; an empty line raises. -/
theorem C115_load (lines : List (List String)) :
    ([] ∈ lines → loadMerged lines [] = .error .indexError) ∧
    ([] ∉ lines → ∃ tr, loadMerged lines [] = .ok tr ∧ (tr.map Prod.fst).Nodup ∧
      ∀ utt, tr.lookup utt = (saidOf lines utt).map (List.destutter (· ≠ ·))) := by
  have e := loadMerged_loadTranscript lines []
  rw [List.map_nil] at e
  obtain ⟨h1, h2⟩ := C111_load lines
  refine ⟨fun h => ?_, fun h => ?_⟩
  · rw [e, h1 h]; rfl
  · obtain ⟨tr, ht, hn, hl⟩ := h2 h
    refine ⟨tr.map fun p => (p.1, collapse p.2), by rw [e, ht]; rfl, ?_, fun utt => ?_⟩
    · rw [List.map_map]; exact hn
    · rw [lookup_map, hl]
      congr 1
      funext l
      exact collapse_destutter l

/-- The number printed is the entropy in bits of the frequencies of the tokens: between 0, reached when
there is a single token type, and the logarithm of the number of types, reached when all are as frequent. -/
theorem C115_entropy (tr : Transcript) (tokens : List String) (ht : tokens = tr.flatMap Prod.snd)
    (hne : tokens ≠ []) :
    entropyRate tr = entropy2 tokens.toFinset (freq tokens) ∧
    0 ≤ entropyRate tr ∧ entropyRate tr ≤ Real.logb 2 tokens.toFinset.card ∧
    (entropyRate tr = 0 ↔ tokens.toFinset.card = 1) ∧
    (entropyRate tr = Real.logb 2 tokens.toFinset.card ↔
      ∀ s ∈ tokens, ∀ t ∈ tokens, tokens.count s = tokens.count t) := by
  have hT : tokens.toFinset.Nonempty := by
    obtain ⟨t, ht⟩ := List.exists_mem_of_ne_nil _ hne
    exact ⟨t, List.mem_toFinset.2 ht⟩
  have hp : ∀ t ∈ tokens.toFinset, 0 < freq tokens t := fun t ht => freq_pos _ _ (List.mem_toFinset.1 ht)
  have hs := freq_sum tokens hne
  have e := entropyRate_eq tr
  rw [← ht] at e
  have hL : (0 : ℝ) < tokens.length := by exact_mod_cast List.length_pos_of_ne_nil hne
  have hK : (0 : ℝ) < tokens.toFinset.card := by exact_mod_cast Finset.card_pos.2 hT
  rw [e]
  refine ⟨rfl, entropy_nonneg _ _ (fun t ht => (hp t ht).le) hs, (entropy_le _ _ hp hs hT).1, ?_, ?_⟩
  · constructor
    · intro h
      by_contra hc
      have := entropy_pos _ _ hp hs (by have := Finset.card_pos.2 hT; omega)
      linarith
    · intro h
      obtain ⟨t, ht⟩ := Finset.card_eq_one.1 h
      have h1 := hs
      rw [ht, Finset.sum_singleton] at h1
      unfold entropy2
      rw [ht, Finset.sum_singleton, h1, Real.negMulLog_one, zero_div]
  · rw [(entropy_le _ _ hp hs hT).2]
    constructor
    · intro h s hs' t ht'
      have h1 := h s (List.mem_toFinset.2 hs')
      have h2 := h t (List.mem_toFinset.2 ht')
      have h3 : freq tokens s = freq tokens t := by rw [h1, h2]
      unfold freq at h3
      rw [div_left_inj' hL.ne'] at h3
      exact_mod_cast h3
    · intro h t ht'
      have h1 : ∑ s ∈ tokens.toFinset, freq tokens s = ∑ s ∈ tokens.toFinset, freq tokens t := by
        refine Finset.sum_congr rfl fun s hs' => ?_
        unfold freq
        rw [h s (List.mem_toFinset.1 hs') t (List.mem_toFinset.1 ht')]
      rw [hs, Finset.sum_const, nsmul_eq_mul] at h1
      field_simp
      linarith

example : entropyRate [("u1", ["a", "b"]), ("u2", ["b", "a", "c", "d"]), ("u3", ["c", "d"])] = 2 := by
  have h := C115_entropy _ _ rfl (show [("u1", ["a", "b"]), ("u2", ["b", "a", "c", "d"]),
    ("u3", ["c", "d"])].flatMap Prod.snd ≠ [] by decide)
  have h1 := h.2.2.2.2.2 (by decide +kernel)
  rw [h1]
  have : (([("u1", ["a", "b"]), ("u2", ["b", "a", "c", "d"]), ("u3", ["c", "d"])].flatMap
    Prod.snd).toFinset).card = 4 := by decide +kernel
  rw [this, show ((4 : ℕ) : ℝ) = (2 : ℝ) ^ (2 : ℝ) by norm_num, Real.logb_rpow (by norm_num) (by norm_num)]

/-- The perplexity is between 1 and the number of types, reached in the same cases. -/
theorem C115_perplexity (tr : Transcript) (tokens : List String) (ht : tokens = tr.flatMap Prod.snd)
    (hne : tokens ≠ []) :
    1 ≤ perplexity tr ∧ perplexity tr ≤ tokens.toFinset.card ∧
    (perplexity tr = 1 ↔ tokens.toFinset.card = 1) ∧
    (perplexity tr = tokens.toFinset.card ↔ ∀ s ∈ tokens, ∀ t ∈ tokens, tokens.count s = tokens.count t) := by
  obtain ⟨-, h0, h1, h2, h3⟩ := C115_entropy tr tokens ht hne
  have hK : (0 : ℝ) < tokens.toFinset.card := by
    obtain ⟨t, ht⟩ := List.exists_mem_of_ne_nil _ hne
    exact_mod_cast Finset.card_pos.2 ⟨t, List.mem_toFinset.2 ht⟩
  have eK : (tokens.toFinset.card : ℝ) = (2 : ℝ) ^ Real.logb 2 tokens.toFinset.card :=
    (Real.rpow_logb (by norm_num) (by norm_num) hK).symm
  have e1 : (1 : ℝ) = (2 : ℝ) ^ (0 : ℝ) := (Real.rpow_zero 2).symm
  have inj : ∀ x y : ℝ, (2 : ℝ) ^ x = (2 : ℝ) ^ y ↔ x = y := fun x y =>
    Real.rpow_right_inj (by norm_num) (by norm_num)
  unfold perplexity
  refine ⟨Real.one_le_rpow (by norm_num) h0, ?_, ?_, ?_⟩
  · rw [eK]; exact Real.rpow_le_rpow_of_exponent_le (by norm_num) h1
  · rw [← h2]
    conv_lhs => rw [e1]
    exact inj _ _
  · rw [← h3]
    conv_lhs => rw [eK]
    exact inj _ _

/-- Without any token. -/
theorem C115_empty (tr : Transcript) (h : ∀ p ∈ tr, p.2 = []) : entropyRate tr = 0 ∧ perplexity tr = 1 := by
  have h1 : entropyRate tr = 0 := by
    rw [entropyRate_eq]
    have : tr.flatMap Prod.snd = [] := List.flatMap_eq_nil_iff.2 h
    rw [this]
    simp [entropy2]
  exact ⟨h1, by unfold perplexity; rw [h1, Real.rpow_zero]⟩

example : loadMerged [["u1", "a", "a", "b"], ["u2"]] [] = .ok [("u1", ["a", "b"]), ("u2", [])] := by
  decide +kernel

end Verif.Props
