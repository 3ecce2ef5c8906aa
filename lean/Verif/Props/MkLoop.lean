import Verif.Model.MkLoop
import Verif.Lemmas.GSM
import Verif.Props.PhoneLoop
import Verif.Props.StickBreaking
import Mathlib.Analysis.SpecialFunctions.Exp
import Mathlib.Analysis.SpecialFunctions.Log.Basic

/-!
# C134, C135: phone loops as the commands create them
-/

namespace Verif.Props

open Verif Verif.Dists Verif.PhoneLoop Verif.VB Verif.MkLoop Verif.Spec Finset

variable {n P : ℕ} [NeZero P]

/-! ## Lemmas -/

theorem rankedAfter_refl (j k : Fin P) : RankedAfter (Equiv.refl (Fin P)) j k ↔ j < k := Iff.rfl

theorem card_before (k : Fin P) : (univ.filter fun j : Fin P => RankedAfter (Equiv.refl _) j k).card = k.val := by
  have : (univ.filter fun j : Fin P => RankedAfter (Equiv.refl _) j k) = Finset.Iio k := by
    ext j
    rw [Finset.mem_filter, Finset.mem_Iio, rankedAfter_refl]
    simp
  rw [this, Fin.card_Iio]

/-- Expected log-weights of the initial sticks. -/
theorem initial_logWeights (c : ℝ) (hc : 0 < c) (k : Fin P) :
    sbExpLlh (Equiv.refl (Fin P)) (defaultSbParam P c).post (Pi.single k 1) =
      digamma 1 - digamma (1 + c) - (k.val : ℝ) / c := by
  rw [(C80_stick_log_weights (Equiv.refl (Fin P)) (defaultSbParam P c).post (fun _ => ⟨one_pos, hc⟩)).1]
  rw [Finset.sum_eq_single k (fun j _ hj => by rw [Pi.single_eq_of_ne hj, zero_mul]) (by simp), Pi.single_eq_same]
  show 1 * (digamma 1 - digamma (1 + c) + ∑ _j ∈ univ.filter (fun j => RankedAfter (Equiv.refl (Fin P)) j k),
    (digamma c - digamma (1 + c))) = _
  rw [Finset.sum_const, card_before, nsmul_eq_mul, add_comm 1 c, digamma_add_one hc]
  field_simp
  ring

/-- Mean weights of the initial sticks. -/
theorem initial_mean (eps c : ℝ) (k : Fin P) :
    sbMean eps (Equiv.refl (Fin P)) (defaultSbParam P c).post k =
      1 / (1 + c + eps) * (c / (1 + c + eps)) ^ k.val := by
  rw [sbMean_eq]
  show 1 / (1 + c + eps) * ∏ _j ∈ univ.filter (fun j => RankedAfter (Equiv.refl (Fin P)) j k), c / (1 + c + eps) = _
  rw [Finset.prod_const, card_before]

theorem concentration_pos (arg : Option ℝ) (h : ∀ c, arg = some c → 0 ≤ c) : 0 < concentration P arg := by
  have hP : (0 : ℝ) < P := by exact_mod_cast Nat.pos_of_ne_zero (NeZero.ne P)
  unfold concentration
  cases arg with
  | none => dsimp only; positivity
  | some c =>
    dsimp only
    split_ifs with h0
    · positivity
    · exact lt_of_le_of_ne (h c rfl) (Ne.symm h0)

/-! ## C134: the initial phone loop -/

/-- The concentration is the option; half the number of units without it. -/
theorem C134_concentration_partial (P : ℕ) (arg : Option ℝ) :
    (arg = none → concentration P arg = P / 2) ∧ (∀ c, arg = some c → c ≠ 0 → concentration P arg = c) := by
  refine ⟨fun h => by rw [h]; rfl, fun c h hc => ?_⟩
  rw [h]
  exact if_neg hc

/-- A concentration of zero is not refused, it is replaced by half the number of units. -/
theorem C134_zero_ignored (P : ℕ) : concentration P (some 0) = P / 2 := if_pos rfl

/-- The class fits the model of the weights for the five names of the table: bigram loops for sets, unigram loops for
the others; other names are refused. -/
theorem C134_class (eps : ℝ) (arg : Option ℝ) (name : String) (starts ends : Fin P → Fin n) (T : TMat n) :
    (name ∈ ["dirichlet", "dirichlet_process", "gamma_dirichlet_process"] →
      ∃ cat T', mkphoneloop eps arg name starts ends T = .ok (.unigram cat T')) ∧
    (name ∈ ["dirichlet2", "hierarchical_dirichlet_process"] →
      ∃ set T', mkphoneloop eps arg name starts ends T = .ok (.bigram set T')) ∧
    (name ∉ ["dirichlet", "dirichlet_process", "gamma_dirichlet_process", "dirichlet2",
        "hierarchical_dirichlet_process"] → mkphoneloop eps arg name starts ends T = .error .keyError) := by
  refine ⟨fun h => ?_, fun h => ?_, fun h => ?_⟩
  · simp only [List.mem_cons, List.not_mem_nil, or_false] at h
    rcases h with rfl | rfl | rfl <;> exact ⟨_, _, rfl⟩
  · simp only [List.mem_cons, List.not_mem_nil, or_false] at h
    rcases h with rfl | rfl <;> exact ⟨_, _, rfl⟩
  · simp only [List.mem_cons, List.not_mem_nil, or_false, not_or] at h
    obtain ⟨h1, h2, h3, h4, h5⟩ := h
    unfold mkphoneloop priors
    rw [if_neg h1, if_neg h4, if_neg h2, if_neg h3, if_neg h5]

/-- Units of two states or more, with self-loops of probability at most one. -/
def LoopOk (starts ends : Fin P → Fin n) (T : TMat n) : Prop :=
  Function.Injective starts ∧ Function.Injective ends ∧ (∀ i j, starts j ≠ ends i) ∧
    ∀ i, lexp (T (ends i) (ends i)) ≤ 1

/-- From the end of unit `i`, the part that does not stay goes to unit `j` with weight `p i j`. -/
def Exits (starts ends : Fin P → Fin n) (T T' : TMat n) (p : Fin P → Fin P → ℝ) : Prop :=
  ∀ i j, lexp (T' (ends i) (starts j)) = (1 - lexp (T (ends i) (ends i))) * p i j

theorem exits_unigram (starts ends : Fin P → Fin n) (T : TMat n) (h : LoopOk starts ends T) (w : Fin P → ℝ) :
    Exits starts ends T (refresh starts (List.ofFn ends) w T) fun _ j => Real.exp (w j) := by
  intro i j
  refine (C19_refresh starts h.1 (List.ofFn ends) ?_ w T ?_).2.1 (ends i) ?_ j
  · intro e he j
    obtain ⟨k, rfl⟩ := (List.mem_ofFn' _ _).1 he
    exact h.2.2.1 k j
  · intro e he
    obtain ⟨k, rfl⟩ := (List.mem_ofFn' _ _).1 he
    exact h.2.2.2 k
  · exact (List.mem_ofFn' _ _).2 ⟨i, rfl⟩

theorem exits_bigram (starts ends : Fin P → Fin n) (T : TMat n) (h : LoopOk starts ends T) (w : Fin P → Fin P → ℝ) :
    Exits starts ends T (bigramRefresh starts ends w T) fun i j => Real.exp (w i j) :=
  fun i j => (C22_bigram_entries starts ends h.1 h.2.1 h.2.2.1 w T h.2.2.2 i).1 j

theorem uniform_logWeight (c : ℝ) (i : Fin P) :
    catExpLlh (catCreate (List.replicate P (1 / (P : ℝ))) c).post (eyeRow P i) = digamma (c / P) - digamma c := by
  obtain ⟨D, rfl⟩ : ∃ D, P = D + 1 := ⟨P - 1, by have := NeZero.ne P; omega⟩
  have h1 : (catCreate (List.replicate (D + 1) (1 / ((D + 1 : ℕ) : ℝ))) c).post =
      List.ofFn fun _ : Fin (D + 1) => c / ((D + 1 : ℕ) : ℝ) := by
    unfold catCreate
    dsimp only
    rw [List.map_replicate, List.ofFn_const]
    congr 1
    ring
  rw [h1]
  unfold eyeRow
  rw [catExpLlh_eq, Finset.sum_eq_single i (fun j _ hj => by rw [if_neg hj, zero_mul]) (by simp), if_pos rfl, one_mul]
  congr 2
  rw [Finset.sum_const, Finset.card_univ, Fintype.card_fin, nsmul_eq_mul]
  have : ((D + 1 : ℕ) : ℝ) ≠ 0 := by positivity
  field_simp

/-- With a Dirichlet prior the units have the same weight; the concentrations are equal and sum to the concentration
asked for. -/
theorem C134_dirichlet (eps : ℝ) (arg : Option ℝ) (starts ends : Fin P → Fin n) (T : TMat n)
    (h : LoopOk starts ends T) :
    ∃ w T', mkphoneloop eps arg "dirichlet" starts ends T = .ok (.unigram (.categorical w) T') ∧
      w.prior = w.post ∧ w.post = List.replicate P (concentration P arg / P) ∧ w.post.sum = concentration P arg ∧
      Exits starts ends T T'
        fun _ _ => Real.exp (digamma (concentration P arg / P) - digamma (concentration P arg)) := by
  have hP : (P : ℝ) ≠ 0 := by exact_mod_cast NeZero.ne P
  have hw : (catCreate (List.replicate P (1 / (P : ℝ))) (concentration P arg)).post =
      List.replicate P (concentration P arg / P) := by
    unfold catCreate
    dsimp only
    rw [List.map_replicate]
    congr 1
    ring
  refine ⟨_, _, rfl, rfl, hw, ?_, ?_⟩
  · rw [hw, List.sum_replicate, nsmul_eq_mul]
    field_simp
  · intro i j
    have := exits_unigram starts ends T h
      (unigramLogWeights (catCreate (List.replicate P (1 / (P : ℝ))) (concentration P arg)).post) i j
    refine this.trans ?_
    exact congrArg (fun t => (1 - lexp (T (ends i) (ends i))) * Real.exp t) (uniform_logWeight _ j)

/-- The same for the bigram loop, for each context. -/
theorem C134_dirichlet2 (eps : ℝ) (arg : Option ℝ) (starts ends : Fin P → Fin n) (T : TMat n)
    (h : LoopOk starts ends T) :
    ∃ w T', mkphoneloop eps arg "dirichlet2" starts ends T = .ok (.bigram (.categoricalSet w) T') ∧
      (∀ i, (w i).prior = (w i).post ∧ (w i).post = List.replicate P (concentration P arg / P)) ∧
      Exits starts ends T T'
        fun _ _ => Real.exp (digamma (concentration P arg / P) - digamma (concentration P arg)) := by
  refine ⟨_, _, rfl, fun i => ⟨rfl, ?_⟩, ?_⟩
  · unfold catCreate
    dsimp only
    rw [List.map_replicate]
    congr 1
    ring
  · intro i j
    refine (exits_bigram starts ends T h _ i j).trans ?_
    exact congrArg (fun t => (1 - lexp (T (ends i) (ends i))) * Real.exp t) (uniform_logWeight _ i)

/-- The posterior of the sticks and the ordering of a unigram loop. -/
def sticks : Cat P → Option ((Fin P → ℝ × ℝ) × Equiv.Perm (Fin P))
  | .categorical _ => none
  | .sb w o => some (w.post, o)
  | .sbHyper s => some (s.sbPost, s.ordering)

/-- With a stick-breaking prior, with or without prior over the concentration: unit `j` has weight
`exp (ψ(1) - ψ(1 + c) - j / c)`. The units are not treated alike: the weights decrease in the order of the units. -/
theorem C134_stick_breaking (eps : ℝ) (arg : Option ℝ) (hc : ∀ c, arg = some c → 0 ≤ c) (name : String)
    (hname : name = "dirichlet_process" ∨ name = "gamma_dirichlet_process") (starts ends : Fin P → Fin n) (T : TMat n)
    (h : LoopOk starts ends T) :
    ∃ cat T', mkphoneloop eps arg name starts ends T = .ok (.unigram cat T') ∧
      sticks cat = some (fun _ => (1, concentration P arg), Equiv.refl _) ∧
      Exits starts ends T T' fun _ j =>
        Real.exp (digamma 1 - digamma (1 + concentration P arg) - (j.val : ℝ) / concentration P arg) := by
  have hpos := concentration_pos (P := P) arg hc
  rcases hname with rfl | rfl
  · refine ⟨_, _, rfl, rfl, ?_⟩
    intro i j
    refine (exits_unigram starts ends T h _ i j).trans ?_
    exact congrArg (fun t => (1 - lexp (T (ends i) (ends i))) * Real.exp t) (initial_logWeights _ hpos j)
  · refine ⟨_, _, rfl, rfl, ?_⟩
    intro i j
    refine (exits_unigram starts ends T h _ i j).trans ?_
    exact congrArg (fun t => (1 - lexp (T (ends i) (ends i))) * Real.exp t) (initial_logWeights _ hpos j)

theorem C134_stick_breaking_order (arg : Option ℝ) (hc : ∀ c, arg = some c → 0 ≤ c) (j k : Fin P) (hjk : j < k) :
    Real.exp (digamma 1 - digamma (1 + concentration P arg) - (k.val : ℝ) / concentration P arg) <
      Real.exp (digamma 1 - digamma (1 + concentration P arg) - (j.val : ℝ) / concentration P arg) := by
  have hpos := concentration_pos (P := P) arg hc
  refine Real.exp_lt_exp.2 ?_
  have : (j.val : ℝ) / concentration P arg < k.val / concentration P arg := by
    refine div_lt_div_of_pos_right ?_ hpos
    exact_mod_cast hjk
  linarith

/-- With a prior over the concentration, its mean is the concentration asked for, and the prior of the sticks keeps
it. -/
theorem C134_hyper_prior (eps : ℝ) (arg : Option ℝ) (hc : ∀ c, arg = some c → 0 ≤ c) (starts ends : Fin P → Fin n)
    (T : TMat n) :
    ∃ s T', mkphoneloop eps arg "gamma_dirichlet_process" starts ends T = .ok (.unigram (.sbHyper s) T') ∧
      gamValue s.concPrior = [concentration P arg] ∧ gamValue s.concPost = [concentration P arg] ∧
      ∀ k, s.sbPrior k = (1, concentration P arg) := by
  have hpos := concentration_pos (P := P) arg hc
  have hv : (1 : ℝ) * 1 / (1 / (1 * concentration P arg)) = concentration P arg := by
    field_simp
  refine ⟨_, _, rfl, ?_, ?_, fun k => ?_⟩
  · show [(1 : ℝ) * 1 / (1 / (1 * concentration P arg))] = _
    rw [hv]
  · show [(1 : ℝ) * 1 / (1 / (1 * concentration P arg))] = _
    rw [hv]
  · show ((1 : ℝ), (1 : ℝ) * 1 / (1 / (1 * concentration P arg))) = _
    rw [hv]

/-- The mean weights of the initial sticks are geometric; what is left after the last unit belongs to no unit. -/
theorem C134_initial_mean (c : ℝ) (hc : 0 < c) :
    (∀ k : Fin P, sbMean 0 (Equiv.refl (Fin P)) (fun _ => (1, c)) k = 1 / (1 + c) * (c / (1 + c)) ^ k.val) ∧
    ∑ k : Fin P, sbMean 0 (Equiv.refl (Fin P)) (fun _ => (1, c)) k = 1 - (c / (1 + c)) ^ P := by
  refine ⟨fun k => ?_, ?_⟩
  · have := initial_mean 0 c k
    rw [add_zero] at this
    exact this
  · rw [(C51_stick_weights (Equiv.refl (Fin P)) (fun _ => ((1 : ℝ), c)) fun _ => ⟨one_pos, hc⟩).2.2.1]
    show 1 - ∏ _k : Fin P, c / (1 + c) = _
    rw [Finset.prod_const, Finset.card_univ, Fintype.card_fin]

/-- With the default concentration, more than `exp (-2)` (13.5%) and at most a third of the weight belongs to no unit,
whatever the number of units. -/
theorem C134_default_lost (c : ℝ) (hdef : c = concentration P none) :
    Real.exp (-2) < 1 - ∑ k : Fin P, sbMean 0 (Equiv.refl (Fin P)) (fun _ => (1, c)) k ∧
    1 - ∑ k : Fin P, sbMean 0 (Equiv.refl (Fin P)) (fun _ => (1, c)) k ≤ 1 / 3 := by
  have hP : (0 : ℝ) < P := by exact_mod_cast Nat.pos_of_ne_zero (NeZero.ne P)
  have hc : c = (P : ℝ) / 2 := hdef
  have hpos : 0 < c := by rw [hc]; positivity
  rw [(C134_initial_mean c hpos).2, sub_sub_cancel]
  have hq : c / (1 + c) = (1 + 2 / (P : ℝ))⁻¹ := by
    rw [hc]
    field_simp
    ring
  rw [hq, inv_pow]
  have h1 : (1 + 2 / (P : ℝ)) ^ P < Real.exp 2 := by
    have h2 : 1 + 2 / (P : ℝ) < Real.exp (2 / P) := by
      have := Real.add_one_lt_exp (x := 2 / (P : ℝ)) (by positivity)
      linarith
    calc (1 + 2 / (P : ℝ)) ^ P < Real.exp (2 / P) ^ P := pow_lt_pow_left₀ h2 (by positivity) (NeZero.ne P)
      _ = Real.exp 2 := by
        rw [← Real.exp_nat_mul]
        congr 1
        field_simp
  have h3 : 3 ≤ (1 + 2 / (P : ℝ)) ^ P := by
    have h5 : 0 < 2 / (P : ℝ) := by positivity
    have := one_add_mul_le_pow (a := 2 / (P : ℝ)) (by linarith) P
    have h4 : 1 + (P : ℝ) * (2 / P) = 3 := by field_simp; norm_num
    linarith
  refine ⟨?_, ?_⟩
  · rw [Real.exp_neg]
    exact inv_strictAnti₀ (by positivity) h1
  · rw [one_div]
    exact inv_anti₀ (by norm_num) h3

/-- The hierarchical prior: every context starts from the weights of the root. -/
theorem C134_hierarchical (eps : ℝ) (arg : Option ℝ) (hc : ∀ c, arg = some c → 0 ≤ c) (starts ends : Fin P → Fin n)
    (T : TMat n) (h : LoopOk starts ends T) :
    ∃ w T', mkphoneloop eps arg "hierarchical_dirichlet_process" starts ends T =
        .ok (.bigram (.sbSet w (Equiv.refl _) (concentration P arg)) T') ∧
      (∀ p, w.post p = (1, concentration P arg)) ∧
      Exits starts ends T T' fun _ j =>
        Real.exp (digamma 1 - digamma (1 + concentration P arg) - (j.val : ℝ) / concentration P arg) := by
  have hpos := concentration_pos (P := P) arg hc
  refine ⟨_, _, rfl, fun p => rfl, ?_⟩
  intro i j
  refine (C22_stickbreaking_set starts ends h.1 h.2.1 h.2.2.1 (Equiv.refl _) _ T h.2.2.2 i j).trans ?_
  congr 2
  rw [← initial_logWeights _ hpos j]
  congr 1

/-- Its prior is proper, and has for each stick the mean of the posterior. -/
theorem C134_hierarchical_prior (arg : Option ℝ) (hc : ∀ c, arg = some c → 0 ≤ c) (starts ends : Fin P → Fin n)
    (T : TMat n) :
    ∃ w T', mkphoneloop 0 arg "hierarchical_dirichlet_process" starts ends T =
        .ok (.bigram (.sbSet w (Equiv.refl _) (concentration P arg)) T') ∧
      (∀ p, 0 < (w.prior p).1 ∧ 0 < (w.prior p).2) ∧
      (∀ i, sbMean 0 (Equiv.refl (Fin P)) (GSM.split w.prior i) = sbMean 0 (Equiv.refl (Fin P)) (GSM.split w.post i)) := by
  have hpos := concentration_pos (P := P) arg hc
  have h := C81_set_prior_mean_partial (K := P) (concentration P arg) hpos (fun _ => (1, concentration P arg))
    (fun _ => ⟨one_pos, hpos⟩)
  refine ⟨_, _, rfl, fun p => h.1 _, fun i => ?_⟩
  have hs : ∀ x : Fin P → ℝ × ℝ, GSM.split (GSM.merge fun _ : Fin P => x) i = x := by
    intro x
    funext k
    exact GSM.merge_pair (fun _ : Fin P => x) i k
  funext k
  show sbMean 0 _ (GSM.split (GSM.merge fun _ : Fin P => _) i) k = sbMean 0 _ (GSM.split (GSM.merge fun _ : Fin P => _) i) k
  rw [hs, hs]
  exact h.2 k

/-- Two units of two states; the transitions of the ends are those of a self-loop of probability one half. -/
def demoStarts : Fin 2 → Fin 4 := ![0, 2]
def demoEnds : Fin 2 → Fin 4 := ![1, 3]
noncomputable def demoTrans : TMat 4 := fun _ _ => ((Real.log (1 / 2) : ℝ) : LogR)

theorem demo_ok : LoopOk demoStarts demoEnds demoTrans := by
  refine ⟨by decide, by decide, by decide, fun i => ?_⟩
  show lexp ((Real.log (1 / 2) : ℝ) : LogR) ≤ 1
  rw [lexp_coe, Real.exp_log (by norm_num)]
  norm_num

example : ∃ cat T', mkphoneloop 0 (some 0) "dirichlet_process" demoStarts demoEnds demoTrans = .ok (.unigram cat T') ∧
    sticks cat = some (fun _ => (1, 1), Equiv.refl _) := by
  obtain ⟨cat, T', h1, h2, -⟩ := C134_stick_breaking 0 (some 0) (by intro c h; cases h; exact le_refl _)
    "dirichlet_process" (.inl rfl) demoStarts demoEnds demoTrans demo_ok
  refine ⟨cat, T', h1, ?_⟩
  rw [h2, C134_zero_ignored]
  norm_num

/-! ## C135: the bigram phone loop -/

/-- Without the option the command fails, whatever the phone loop: the default value of the option is not a choice. -/
theorem C135_default_fails (eps : ℝ) (starts ends : Fin P → Fin n) (ploop : Loop n P) :
    mkphoneloopbigram eps none starts ends ploop = .error .keyError := rfl

/-- The other errors: a bigram phone loop has no unigram weights; a loop with a Dirichlet prior has no sticks. -/
theorem C135_errors (eps : ℝ) (starts ends : Fin P → Fin n) (T : TMat n) :
    (∀ set name, name = "dirichlet2" ∨ name = "hierarchical_dirichlet_process" →
      mkphoneloopbigram eps (some name) starts ends (.bigram set T) = .error .attributeError) ∧
    (∀ w, mkphoneloopbigram eps (some "hierarchical_dirichlet_process") starts ends (.unigram (.categorical w) T) =
      .error .attributeError) ∧
    (∀ name ploop, name ≠ "dirichlet2" → name ≠ "hierarchical_dirichlet_process" →
      mkphoneloopbigram eps (some name) starts ends ploop = .error .keyError) := by
  refine ⟨?_, fun w => rfl, fun name ploop h1 h2 => ?_⟩
  · rintro set name (rfl | rfl) <;> rfl
  · unfold mkphoneloopbigram
    dsimp only [Option.getD_some]
    rw [if_neg h1, if_neg h2]

theorem split_const (x : Fin P → ℝ × ℝ) (i : Fin P) : GSM.split (GSM.merge fun _ : Fin P => x) i = x := by
  funext k
  exact GSM.merge_pair (fun _ : Fin P => x) i k

theorem sbSet_row (σ : Equiv.Perm (Fin P)) (post : Fin P → ℝ × ℝ) (i j : Fin P) :
    sbSetLogLikelihood σ (GSM.split (GSM.merge fun _ : Fin P => post)) i j = sbExpLlh σ post (Pi.single j 1) := by
  unfold sbSetLogLikelihood sbExpLlh
  rw [Finset.sum_eq_single i (fun m _ hm => by rw [if_neg (Ne.symm hm), zero_mul]) (by simp), if_pos rfl, one_mul,
    split_const, Finset.sum_eq_single j (fun m _ hm => by rw [Pi.single_eq_of_ne hm, zero_mul]) (by simp),
    Pi.single_eq_same, one_mul]

theorem bigramRefresh_const (starts ends : Fin P → Fin n) (w : Fin P → ℝ) (T : TMat n) :
    bigramRefresh starts ends (fun _ => w) T = refresh starts (List.ofFn ends) w T := by
  unfold bigramRefresh refresh
  rw [List.ofFn_eq_map, List.foldl_map]

theorem logWeights_sticks (cat : Cat P) (post : Fin P → ℝ × ℝ) (o : Equiv.Perm (Fin P)) (h : sticks cat = some (post, o)) :
    MkLoop.logWeights cat = fun j => sbExpLlh o post (Pi.single j 1) := by
  cases cat with
  | categorical w => simp [sticks] at h
  | sb w o' =>
    simp only [sticks, Option.some.injEq, Prod.mk.injEq] at h
    obtain ⟨rfl, rfl⟩ := h
    rfl
  | sbHyper s =>
    simp only [sticks, Option.some.injEq, Prod.mk.injEq] at h
    obtain ⟨rfl, rfl⟩ := h
    rfl

/-- With the hierarchical prior, the bigram loop made from a loop with stick-breaking weights, whatever its training,
is the same process: the transitions are those of the unigram loop, the sticks of every context are those of the
unigram. -/
theorem C135_keeps_unigram_partial (eps : ℝ) (starts ends : Fin P → Fin n) (T : TMat n) (h : LoopOk starts ends T)
    (cat : Cat P) (post : Fin P → ℝ × ℝ) (o : Equiv.Perm (Fin P)) (hcat : sticks cat = some (post, o)) :
    ∃ w c, mkphoneloopbigram eps (some "hierarchical_dirichlet_process") starts ends (newUnigram starts ends cat T) =
        .ok (.bigram (.sbSet w o c) (refresh starts (List.ofFn ends) (MkLoop.logWeights cat) T)) ∧
      ∀ i, GSM.split w.post i = post := by
  have hb : buildHsbFrom eps cat = .ok (sbSetCreate eps post o ((P : ℝ) / 2)) := by
    cases cat with
    | categorical w => simp [sticks] at hcat
    | sb w o' =>
      simp only [sticks, Option.some.injEq, Prod.mk.injEq] at hcat
      obtain ⟨rfl, rfl⟩ := hcat
      rfl
    | sbHyper s =>
      simp only [sticks, Option.some.injEq, Prod.mk.injEq] at hcat
      obtain ⟨rfl, rfl⟩ := hcat
      rfl
  have hrow : setLogWeights (sbSetCreate eps post o ((P : ℝ) / 2)) = fun _ => MkLoop.logWeights cat := by
    rw [logWeights_sticks cat post o hcat]
    funext i j
    exact sbSet_row o post i j
  have hidem : refresh starts (List.ofFn ends) (MkLoop.logWeights cat)
      (refresh starts (List.ofFn ends) (MkLoop.logWeights cat) T) =
      refresh starts (List.ofFn ends) (MkLoop.logWeights cat) T :=
    C19_history starts h.1 (List.ofFn ends) (fun e he j => by
      obtain ⟨k, rfl⟩ := (List.mem_ofFn' _ _).1 he
      exact h.2.2.1 k j) T [MkLoop.logWeights cat] (MkLoop.logWeights cat)
  refine ⟨⟨GSM.merge fun _ : Fin P => sbSetPrior ((P : ℝ) / 2) (sbMean eps o post), GSM.merge fun _ : Fin P => post⟩,
    (P : ℝ) / 2, ?_, fun i => split_const post i⟩
  unfold mkphoneloopbigram newUnigram
  dsimp only [Option.getD_some]
  rw [if_neg (by decide), if_pos rfl, hb]
  dsimp only
  unfold newBigram
  rw [hrow, bigramRefresh_const, hidem]
  rfl

/-- With the other prior, everything the unigram loop has learnt is lost: all the units are equiprobable, in every
context. -/
theorem C135_unigram_lost (eps : ℝ) (starts ends : Fin P → Fin n) (T : TMat n) (h : LoopOk starts ends T) :
    ∃ set T', (∀ cat, mkphoneloopbigram eps (some "dirichlet2") starts ends (.unigram cat T) = .ok (.bigram set T')) ∧
      Exits starts ends T T' fun _ _ => Real.exp (digamma (1 / P) - digamma 1) := by
  refine ⟨_, _, fun cat => rfl, ?_⟩
  intro i j
  refine (exits_bigram starts ends T h _ i j).trans ?_
  exact congrArg (fun t => (1 - lexp (T (ends i) (ends i))) * Real.exp t) (uniform_logWeight 1 i)

/-- A unigram loop of two units whose weights differ: the transitions of the bigram loop made from it are not its
own. -/
theorem C135_unigram_lost_witness : ∃ cat : Cat 2, ∃ set T', sticks cat = none ∧
    mkphoneloopbigram 0 (some "dirichlet2") demoStarts demoEnds (newUnigram demoStarts demoEnds cat demoTrans) =
      .ok (.bigram set T') ∧
    lexp (T' 1 0) = lexp (T' 1 2) ∧
    lexp (refresh demoStarts (List.ofFn demoEnds) (MkLoop.logWeights cat) demoTrans 1 0) ≠
      lexp (refresh demoStarts (List.ofFn demoEnds) (MkLoop.logWeights cat) demoTrans 1 2) := by
  have hok : LoopOk demoStarts demoEnds
      (refresh demoStarts (List.ofFn demoEnds) (MkLoop.logWeights (.categorical ⟨[1, 2], [1, 2]⟩)) demoTrans) := by
    refine ⟨demo_ok.1, demo_ok.2.1, demo_ok.2.2.1, fun i => ?_⟩
    rw [(C19_refresh demoStarts demo_ok.1 (List.ofFn demoEnds) (by decide) _ demoTrans (by
      intro e _
      show lexp ((Real.log (1 / 2) : ℝ) : LogR) ≤ 1
      rw [lexp_coe, Real.exp_log (by norm_num)]
      norm_num)).1]
    exact demo_ok.2.2.2 i
  obtain ⟨set, T', h1, h2⟩ := C135_unigram_lost 0 demoStarts demoEnds _ hok
  refine ⟨.categorical ⟨[1, 2], [1, 2]⟩, set, T', rfl, h1 _, (h2 0 0).trans (h2 0 1).symm, ?_⟩
  have h3 := exits_unigram demoStarts demoEnds demoTrans demo_ok (MkLoop.logWeights (.categorical ⟨[1, 2], [1, 2]⟩))
  have hl : lexp (demoTrans (demoEnds 0) (demoEnds 0)) = 1 / 2 := by
    show lexp ((Real.log (1 / 2) : ℝ) : LogR) = 1 / 2
    rw [lexp_coe, Real.exp_log (by norm_num)]
  have e0 := h3 0 0
  have e1 := h3 0 1
  rw [hl] at e0 e1
  intro heq
  have heq' := (e0.symm.trans heq).trans e1
  have h4 : MkLoop.logWeights (P := 2) (.categorical ⟨[1, 2], [1, 2]⟩) 0 =
      MkLoop.logWeights (P := 2) (.categorical ⟨[1, 2], [1, 2]⟩) 1 := by
    have : Real.exp (MkLoop.logWeights (P := 2) (.categorical ⟨[1, 2], [1, 2]⟩) 0) =
      Real.exp (MkLoop.logWeights (P := 2) (.categorical ⟨[1, 2], [1, 2]⟩) 1) := by linarith
    exact Real.exp_injective this
  have hval : ∀ j : Fin 2, MkLoop.logWeights (P := 2) (.categorical ⟨[1, 2], [1, 2]⟩) j =
      digamma ((![1, 2] : Fin 2 → ℝ) j) - digamma (∑ k, (![1, 2] : Fin 2 → ℝ) k) := by
    intro j
    show catExpLlh [1, 2] (eyeRow 2 j) = _
    have := catExpLlh_eq (![1, 2] : Fin 2 → ℝ) (fun k => if k = j then 1 else 0)
    have hl : ([1, 2] : List ℝ) = List.ofFn (![1, 2] : Fin 2 → ℝ) := by simp
    rw [hl]
    unfold eyeRow
    rw [this, Finset.sum_eq_single j (fun k _ hk => by rw [if_neg hk, zero_mul]) (by simp), if_pos rfl, one_mul]
  rw [hval, hval] at h4
  have h5 : digamma 2 = digamma 1 + 1 := by
    have := digamma_add_one (x := 1) one_pos
    norm_num at this ⊢
    exact this
  simp at h4
  linarith

/-- The prior of the sticks is proper whatever the training of the unigram loop and the order of its units. -/
theorem C135_prior_proper (eps : ℝ) (heps : 0 ≤ eps) (post : Fin P → ℝ × ℝ)
    (hpost : ∀ k, 0 < (post k).1 ∧ 0 < (post k).2) (o : Equiv.Perm (Fin P)) (c : ℝ) (hc : 0 < c) :
    ∃ w, sbSetCreate eps post o c = .sbSet w o c ∧ (∀ p, 0 < (w.prior p).1 ∧ 0 < (w.prior p).2) ∧
      ∀ p, 0 < (w.post p).1 ∧ 0 < (w.post p).2 := by
  refine ⟨_, rfl, fun p => ⟨?_, ?_⟩, fun p => hpost _⟩
  · show 0 < c * sbMean eps o post _
    refine mul_pos hc ?_
    rw [sbMean_eq]
    unfold stickWeight
    refine mul_pos (div_pos (hpost _).1 ?_) (Finset.prod_pos fun j _ => div_pos (hpost _).2 ?_)
    · have := hpost p.modNat
      linarith
    · have := hpost j
      linarith
  · show 0 < c * (1 - cumsum (sbMean eps o post) _)
    refine mul_pos hc ?_
    obtain ⟨h1, -, h3⟩ := C51_stick_weights_eps eps heps o post hpost
    have : cumsum (sbMean eps o post) p.modNat ≤ ∑ k, sbMean eps o post k :=
      Finset.sum_le_sum_of_subset_of_nonneg (Finset.filter_subset _ _) fun k _ _ => h1 k
    linarith

/-- The counts of a context reach the sticks of this context only: its own count for the first parameter, those of the
units broken off later for the second one. -/
theorem C135_training (o : Equiv.Perm (Fin P)) (w : CParam (Fin (P * P) → ℝ × ℝ)) (stats : Fin P → Fin P → ℝ)
    (i k : Fin P) :
    GSM.split (sbSetUpdate o w stats 1).post i k =
      ((GSM.split w.prior i k).1 + stats i k, (GSM.split w.prior i k).2 + countAfter o (stats i) k) ∧
    GSM.split (sbSetUpdate o w stats 1).prior i k = GSM.split w.prior i k := by
  refine ⟨?_, rfl⟩
  show betaUpdate _ _ (GSM.merge _ (finProdFinEquiv (i, k))) 1 = _
  rw [GSM.merge_pair]
  have h := C50_stick_posterior (stats i) o (GSM.split w.prior i k) (GSM.split w.post i k) k
  rw [betaUpdate_eq] at h
  simp only [Except.ok.injEq, List.cons.injEq, and_true] at h
  exact Prod.ext h.1 h.2

/-- Sticks stay proper along any training. -/
theorem C135_training_valid (o : Equiv.Perm (Fin P)) (w : CParam (Fin (P * P) → ℝ × ℝ))
    (ops : List ((Fin P → Fin P → ℝ) × ℝ)) (hops : ∀ op ∈ ops, (∀ i k, 0 ≤ op.1 i k) ∧ 0 ≤ op.2 ∧ op.2 ≤ 1)
    (hprior : ∀ p, 0 < (w.prior p).1 ∧ 0 < (w.prior p).2) (hpost : ∀ p, 0 < (w.post p).1 ∧ 0 < (w.post p).2) :
    (sbSetTrain o w ops).prior = w.prior ∧
      ∀ p, 0 < ((sbSetTrain o w ops).post p).1 ∧ 0 < ((sbSetTrain o w ops).post p).2 := by
  induction ops generalizing w with
  | nil => exact ⟨rfl, hpost⟩
  | cons op ops ih =>
    obtain ⟨stats, l⟩ := op
    obtain ⟨hs, hl0, hl1⟩ := hops _ List.mem_cons_self
    dsimp only at hs hl0 hl1
    refine ih (sbSetUpdate o w stats l) (fun op h => hops op (List.mem_cons_of_mem _ h)) hprior fun p => ?_
    show 0 < (betaUpdate _ _ (sbTransform o (stats p.divNat) p.modNat) l).1 ∧
      0 < (betaUpdate _ _ (sbTransform o (stats p.divNat) p.modNat) l).2
    have ht : sbTransform o (stats p.divNat) p.modNat =
        (stats p.divNat p.modNat, countAfter o (stats p.divNat) p.modNat + stats p.divNat p.modNat) := by
      unfold sbTransform
      dsimp only
      rw [reverseOrdering_eq, flip_cumsum_flip, sum_shiftUp, sum_higher_rank o (stats p.divNat) p.modNat,
        Equiv.apply_symm_apply]
      rfl
    rw [ht, betaUpdate_closed]
    have hn := hs p.divNat p.modNat
    have hca : 0 ≤ countAfter o (stats p.divNat) p.modNat := Finset.sum_nonneg fun j _ => hs _ j
    obtain ⟨hp1, hp2⟩ := hprior p
    obtain ⟨hq1, hq2⟩ := hpost p
    constructor
    · show 0 < (1 - l) * (w.post p).1 + l * ((w.prior p).1 + _)
      rcases hl0.eq_or_lt with h0 | h0
      · rw [← h0]
        simpa using hq1
      · have : 0 < l * ((w.prior p).1 + stats p.divNat p.modNat) := mul_pos h0 (by linarith)
        have : 0 ≤ (1 - l) * (w.post p).1 := mul_nonneg (by linarith) hq1.le
        linarith
    · show 0 < (1 - l) * (w.post p).2 + l * ((w.prior p).2 + _)
      rcases hl0.eq_or_lt with h0 | h0
      · rw [← h0]
        simpa using hq2
      · have : 0 < l * ((w.prior p).2 + countAfter o (stats p.divNat) p.modNat) := mul_pos h0 (by linarith)
        have : 0 ≤ (1 - l) * (w.post p).2 := mul_nonneg (by linarith) hq2.le
        linarith

/-- A context without any count keeps the weights of the unigram, if the units of the unigram have not been
re-ordered. -/
theorem C135_unseen_context_partial (post : Fin P → ℝ × ℝ) (hpost : ∀ k, 0 < (post k).1 ∧ 0 < (post k).2) (c : ℝ)
    (hc : 0 < c) (w : CParam (Fin (P * P) → ℝ × ℝ))
    (hw : sbSetCreate 0 post (Equiv.refl _) c = .sbSet w (Equiv.refl _) c) (stats : Fin P → Fin P → ℝ) (i : Fin P)
    (hi : ∀ k, stats i k = 0) :
    sbSetMean 0 (Equiv.refl _) (sbSetUpdate (Equiv.refl _) w stats 1).post i = sbMean 0 (Equiv.refl (Fin P)) post := by
  have hprior : w.prior = GSM.merge fun _ : Fin P => sbSetPrior c (sbMean 0 (Equiv.refl (Fin P)) post) := by
    unfold sbSetCreate at hw
    injection hw with h1 h2
    rw [← h1]
  have hrow : GSM.split (sbSetUpdate (Equiv.refl _) w stats 1).post i =
      sbSetPrior c (sbMean 0 (Equiv.refl (Fin P)) post) := by
    funext k
    rw [(C135_training (Equiv.refl _) w stats i k).1, hi, hprior, split_const]
    have : countAfter (Equiv.refl (Fin P)) (stats i) k = 0 := Finset.sum_eq_zero fun j _ => hi j
    rw [this, add_zero, add_zero]
  unfold sbSetMean
  rw [hrow]
  funext k
  exact (C81_set_prior_mean_partial (K := P) c hc post hpost).2 k

/-- If they have, it does not. -/
theorem C135_unseen_context_fails : ∃ (o : Equiv.Perm (Fin 2)) (post : Fin 2 → ℝ × ℝ),
    (∀ k, 0 < (post k).1 ∧ 0 < (post k).2) ∧ SortsDesc (fun k => (post k).1) o ∧
    ∃ w, sbSetCreate 0 post o 1 = .sbSet w o 1 ∧
      sbSetMean 0 o (sbSetUpdate o w (fun _ _ => 0) 1).post 0 0 ≠ sbMean 0 o post 0 := by
  refine ⟨Equiv.swap 0 1, ![(1, 1), (3, 1)], ?_, ?_, _, rfl, ?_⟩
  · intro k
    fin_cases k <;> norm_num
  · intro i j hij
    fin_cases i <;> fin_cases j <;> simp_all [Equiv.swap_apply_def]
    all_goals norm_num
  · have hrow : GSM.split (sbSetUpdate (Equiv.swap 0 1)
        ⟨GSM.merge fun _ : Fin 2 => sbSetPrior 1 (sbMean 0 (Equiv.swap (0 : Fin 2) 1) ![((1 : ℝ), 1), (3, 1)]),
          GSM.merge fun _ : Fin 2 => ![((1 : ℝ), 1), (3, 1)]⟩ (fun _ _ => 0) 1).post 0 =
        sbSetPrior 1 (sbMean 0 (Equiv.swap (0 : Fin 2) 1) ![((1 : ℝ), 1), (3, 1)]) := by
      funext k
      rw [(C135_training (Equiv.swap (0 : Fin 2) 1) _ (fun _ _ => 0) 0 k).1, split_const]
      have : countAfter (Equiv.swap (0 : Fin 2) 1) (fun _ => (0 : ℝ)) k = 0 := Finset.sum_eq_zero fun j _ => rfl
      rw [this, add_zero, add_zero]
    show sbMean 0 _ (GSM.split _ 0) 0 ≠ _
    rw [hrow, sbMean_eq, sbMean_eq]
    have hf0 : (univ.filter fun j : Fin 2 => RankedAfter (Equiv.swap (0 : Fin 2) 1) j 0) = {1} := by decide
    have hf1 : (univ.filter fun j : Fin 2 => RankedAfter (Equiv.swap (0 : Fin 2) 1) j 1) = ∅ := by decide
    have hm0 : sbMean 0 (Equiv.swap (0 : Fin 2) 1) ![((1 : ℝ), 1), (3, 1)] 0 = 1 / 8 := by
      rw [sbMean_eq]
      unfold stickWeight
      rw [hf0, Finset.prod_singleton]
      norm_num
    have hm1 : sbMean 0 (Equiv.swap (0 : Fin 2) 1) ![((1 : ℝ), 1), (3, 1)] 1 = 3 / 4 := by
      rw [sbMean_eq]
      unfold stickWeight
      rw [hf1, Finset.prod_empty]
      norm_num
    have hu0 : (univ.filter fun j : Fin 2 => j ≤ 0) = {0} := by decide
    have hu1 : (univ.filter fun j : Fin 2 => j ≤ 1) = {0, 1} := by decide
    unfold stickWeight sbSetPrior cumsum
    rw [hf0, Finset.prod_singleton, Finset.prod_singleton]
    dsimp only
    rw [hu0, hu1, Finset.sum_singleton, Finset.sum_pair (by decide), hm0, hm1]
    norm_num

/-- A trained unigram loop of two units. -/
example : ∃ w c, mkphoneloopbigram 0 (some "hierarchical_dirichlet_process") demoStarts demoEnds
      (newUnigram demoStarts demoEnds (.sb ⟨fun _ => (1, 1), ![(1, 1), (3, 1)]⟩ (Equiv.swap 0 1)) demoTrans) =
    .ok (.bigram (.sbSet w (Equiv.swap 0 1) c) (refresh demoStarts (List.ofFn demoEnds)
      (MkLoop.logWeights (.sb ⟨fun _ => (1, 1), ![(1, 1), (3, 1)]⟩ (Equiv.swap 0 1))) demoTrans)) := by
  obtain ⟨w, c, h, -⟩ := C135_keeps_unigram_partial 0 demoStarts demoEnds demoTrans demo_ok
    (.sb ⟨fun _ => (1, 1), ![(1, 1), (3, 1)]⟩ (Equiv.swap 0 1)) _ _ rfl
  exact ⟨w, c, h⟩

end Verif.Props
