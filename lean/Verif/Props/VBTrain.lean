import Verif.Lemmas.VBHmm
import Verif.Props.WishartKL

/-!
# C86-C90: variational training

C86 gain of a natural gradient step, C87 training of mixtures, C88 training of HMMs, C89 the value
reported for an HMM, C90 optimality of the full step.
-/

namespace Verif.Props

open Real Verif.Dists Verif.DistSpec Verif.Spec Verif.VB Verif.Mixture

variable {X : Type}

/-! ## C86: one update of a conjugate parameter -/

/-- C86: gain of an update, Normal-Gamma. -/
theorem C86_normalgamma_gain {D : ℕ} (hD : 1 ≤ D) :
    UpdateGain (ngFam D) (NGValid D) (fun x => x.length = D) := (ngConj hD).updateGain

/-- C86: gain of an update, isotropic Normal-Gamma. -/
theorem C86_isonormalgamma_gain {D : ℕ} (hD : 1 ≤ D) :
    UpdateGain (ingFam D) (INGValid D) (fun x => x.length = D) := (ingConj hD).updateGain

/-- C86: gain of an update, Normal-Wishart. -/
theorem C86_normalwishart_gain (D : ℕ) : UpdateGain (nwFam D) (NWValidD D) (fun _ => True) :=
  nwConj.updateGain

/-- C86: gain of an update, Dirichlet. -/
theorem C86_dirichlet_gain {D : ℕ} (hD : 1 ≤ D) :
    UpdateGain (dirFam D) (DirValid D) (CountsValid D) := (dirConj hD).updateGain

/-- The divergence of a family is the one of `kl_div`. -/
theorem ng_kl_zero {D : ℕ} (hD : 1 ≤ D) (p q : NG ℝ) (hp : NGValid D p) (hq : NGValid D q)
    (h : (ngFam D).kl p q = .ok 0) : p = q := by
  rw [(ngConj hD).kl_eq p q hp hq] at h
  have e := (C39_kl_zero_iff hD (.normalGamma p) (.normalGamma q) hp hq (by constructor)
    (by intro c h; cases h)).1 (by
      rw [klDiv_value hD (.normalGamma p) (.normalGamma q) hp hq (by constructor)]
      exact h)
  injection e

theorem ing_kl_zero {D : ℕ} (hD : 1 ≤ D) (p q : ING ℝ) (hp : INGValid D p) (hq : INGValid D q)
    (h : (ingFam D).kl p q = .ok 0) : p = q := by
  rw [(ingConj hD).kl_eq p q hp hq] at h
  have e := (C39_kl_zero_iff hD (.isoNormalGamma p) (.isoNormalGamma q) hp hq (by constructor)
    (by intro c h; cases h)).1 (by
      rw [klDiv_value hD (.isoNormalGamma p) (.isoNormalGamma q) hp hq (by constructor)]
      exact h)
  injection e

theorem dir_kl_zero {D : ℕ} (hD : 2 ≤ D) (p q : List ℝ) (hp : DirValid D p) (hq : DirValid D q)
    (h : (dirFam D).kl p q = .ok 0) : p = q := by
  have hD1 : 1 ≤ D := by omega
  rw [(dirConj hD1).kl_eq p q hp hq] at h
  have e := (C39_kl_zero_iff hD1 (.dirichlet p) (.dirichlet q) hp hq (by constructor)
    (fun _ _ => hD)).1 (by
      rw [klDiv_value hD1 (.dirichlet p) (.dirichlet q) hp hq (by constructor)]
      exact h)
  injection e

theorem nw_kl_zero {D : ℕ} (hD : 1 ≤ D) (p q : Σ D : ℕ, NW D) (hp : NWValidD D p)
    (hq : NWValidD D q) (h : (nwFam D).kl p q = .ok 0) : p = q := by
  rw [nwConj.kl_eq p q hp hq] at h
  obtain ⟨D1, p⟩ := p
  obtain ⟨D2, q⟩ := q
  obtain ⟨h1, hp⟩ := hp
  obtain ⟨h2, hq⟩ := hq
  dsimp only at h1 h2
  subst h1
  subst h2
  have := nwKlVal_eq_zero p q hp hq hD (Except.ok.inj h)
  rw [this]

/-- C86: an update never decreases the objective and is stationary exactly at the fixed point,
Normal-Gamma. -/
theorem C86_normalgamma_stationary {D : ℕ} (hD : 1 ≤ D) :
    UpdateStrict (ngFam D) (NGValid D) (fun x => x.length = D) :=
  (ngConj hD).updateStrict (ng_kl_zero hD)

/-- C86: isotropic Normal-Gamma. -/
theorem C86_isonormalgamma_stationary {D : ℕ} (hD : 1 ≤ D) :
    UpdateStrict (ingFam D) (INGValid D) (fun x => x.length = D) :=
  (ingConj hD).updateStrict (ing_kl_zero hD)

/-- C86: Normal-Wishart. -/
theorem C86_normalwishart_stationary {D : ℕ} (hD : 1 ≤ D) :
    UpdateStrict (nwFam D) (NWValidD D) (fun _ => True) := nwConj.updateStrict (nw_kl_zero hD)

/-- C86: Dirichlet of at least two categories. -/
theorem C86_dirichlet_stationary {D : ℕ} (hD : 2 ≤ D) :
    UpdateStrict (dirFam D) (DirValid D) (CountsValid D) :=
  (dirConj (by omega)).updateStrict (dir_kl_zero hD)

example : ParamValid (DirValid 3) (⟨[1, 1, 1], [2, 1 / 2, 3]⟩ : CParam (List ℝ)) ∧
    (∀ r ∈ [((2 : ℝ), [(1 : ℝ), 0, 0]), (1 / 2, [0, 3, 1])], 0 ≤ r.1 ∧ CountsValid 3 r.2) := by
  constructor
  · constructor <;> refine ⟨by simp, ?_⟩ <;> intro v hv <;> simp at hv <;>
      rcases hv with rfl | rfl | rfl <;> norm_num
  · intro r hr
    simp at hr
    rcases hr with rfl | rfl <;> refine ⟨by norm_num, by simp, ?_⟩ <;> intro v hv <;> simp at hv <;>
      rcases hv with rfl | rfl | rfl <;> norm_num

/-- C86, error branch: statistics of the wrong size are refused. -/
theorem C86_update_size {P : Type} (fam : Family X P) (c : CParam P) (s n0 n1 : List ℝ) (l : ℝ)
    (h0 : fam.natural c.prior = .ok n0) (h1 : fam.natural c.post = .ok n1)
    (h : n0.length ≠ s.length) : fam.update c s l = .error .runtimeError := by
  unfold Family.update
  rw [h0, h1]
  show (if _ then _ else _) = _
  rw [if_pos (Or.inl h)]

example : (dirFam 2).update ⟨[1, 1], [2, 3]⟩ [1, 2, 3] 1 = .error .runtimeError :=
  C86_update_size (dirFam 2) ⟨[1, 1], [2, 3]⟩ [1, 2, 3] _ _ 1 rfl rfl (by
    show (dirNatural ([1, 1] : List ℝ)).length ≠ 3
    simp [dirNatural])

/-! ## C90: the full step -/

/-- C90: the step of learning rate one is optimal, Normal-Gamma. -/
theorem C90_normalgamma_optimal {D : ℕ} (hD : 1 ≤ D) :
    OneStepOptimal (ngFam D) (NGValid D) (fun x => x.length = D) (-(1/2) * (D : ℝ) * log (2 * π)) :=
  (ngConj hD).oneStepOptimal

/-- C90: isotropic Normal-Gamma. -/
theorem C90_isonormalgamma_optimal {D : ℕ} (hD : 1 ≤ D) :
    OneStepOptimal (ingFam D) (INGValid D) (fun x => x.length = D) (-(1/2) * (D : ℝ) * log (2 * π)) :=
  (ingConj hD).oneStepOptimal

/-- C90: Normal-Wishart. -/
theorem C90_normalwishart_optimal (D : ℕ) :
    OneStepOptimal (nwFam D) (NWValidD D) (fun _ => True) (-(1/2) * (D : ℝ) * log (2 * π)) :=
  nwConj.oneStepOptimal

/-- C90: Dirichlet. -/
theorem C90_dirichlet_optimal {D : ℕ} (hD : 1 ≤ D) :
    OneStepOptimal (dirFam D) (DirValid D) (CountsValid D) 0 := (dirConj hD).oneStepOptimal

example : DirValid 2 ([1, 1] : List ℝ) ∧ NGValid 1 (⟨[0], 1, 1, [1]⟩ : NG ℝ) ∧
    INGValid 1 (⟨[0], 1, 1, 1⟩ : ING ℝ) ∧
    NWValidD 2 ⟨2, ⟨![0, 0], 1, 1, 2⟩⟩ :=
  ⟨⟨rfl, by simp⟩, ⟨rfl, rfl, by norm_num, by norm_num, by simp⟩,
    ⟨rfl, by norm_num, by norm_num, by norm_num⟩, rfl, by norm_num, Matrix.PosDef.one, by norm_num⟩

/-! ## C87: sets of models and mixtures -/

/-- C87: sets of Normal models with diagonal covariance are well behaved. -/
theorem C87_normalset_diagonal {D : ℕ} (hD : 1 ≤ D) (M : ℕ) :
    Lawful (familySet (ngFam D) M) (SetValid (NGValid D)) (fun x => x.length = D) :=
  familySet_lawful (ngConj hD) M

/-- C87: isotropic covariance. -/
theorem C87_normalset_isotropic {D : ℕ} (hD : 1 ≤ D) (M : ℕ) :
    Lawful (familySet (ingFam D) M) (SetValid (INGValid D)) (fun x => x.length = D) :=
  familySet_lawful (ingConj hD) M

/-- C87: full covariance. -/
theorem C87_normalset_full (D M : ℕ) :
    Lawful (familySet (nwFam D) M) (SetValid (NWValidD D)) (fun _ => True) :=
  familySet_lawful nwConj M

/-- C87: sets of categorical models. -/
theorem C87_categoricalset {D : ℕ} (hD : 1 ≤ D) (M : ℕ) :
    Lawful (familySet (dirFam D) M) (SetValid (DirValid D)) (CountsValid D) :=
  familySet_lawful (dirConj hD) M

/-- C87: a set of mixtures over a well-behaved set is well behaved. -/
theorem C87_mixtureset {M C : ℕ} (hC : 1 ≤ C) (inner : SetModel X (M * C)) (V : inner.State → Prop)
    (XV : X → Prop) (h : Lawful inner V XV) :
    Lawful (mixtureSet M C inner) (fun st => SetValid (DirValid C) st.1 ∧ V st.2) XV :=
  mixtureSet_lawful hC inner V XV h

/-- C87: a reordered or repeated set. -/
theorem C87_orderedset {M S : ℕ} (order : Fin S → Fin M) (inner : SetModel X M)
    (V : inner.State → Prop) (XV : X → Prop) (h : Lawful inner V XV) :
    Lawful (orderedSet order inner) V XV := orderedSet_lawful order inner V XV h

/-- C87: the concatenation of two sets. -/
theorem C87_jointset {M N : ℕ} (a : SetModel X M) (b : SetModel X N) (Va : a.State → Prop)
    (Vb : b.State → Prop) (XV : X → Prop) (ha : Lawful a Va XV) (hb : Lawful b Vb XV) :
    Lawful (jointSet a b) (fun st => Va st.1 ∧ Vb st.2) XV := jointSet_lawful a b Va Vb XV ha hb

/-- C87: training a mixture over a well-behaved set on a non-empty batch, with any sequence of
learning rates in `(0, 1]`, raises no exception, keeps the parameters valid, and never decreases
`evidence_lower_bound`. -/
theorem C87_mixture_training {K : ℕ} (hK : 1 ≤ K) (inner : SetModel X K) (V : inner.State → Prop)
    (XV : X → Prop) (hin : Lawful inner V XV) (data : List X) (hd : ∀ x ∈ data, XV x)
    (hne : data ≠ []) (datasize : ℤ) (ls : List ℝ) (hl : ∀ l ∈ ls, 0 < l ∧ l ≤ 1)
    (st : MixState inner) (hw : ParamValid (DirValid K) st.weights) (hc : V st.comps) :
    ∃ st' g g', mixTrain inner data datasize st ls = .ok st' ∧
      ParamValid (DirValid K) st'.weights ∧ V st'.comps ∧
      mixElbo inner st data datasize = .ok g ∧ mixElbo inner st' data datasize = .ok g' ∧ g ≤ g' := by
  induction ls generalizing st with
  | nil =>
    obtain ⟨_, g, _, _, _, e, _⟩ := mix_step hK inner V XV hin st ⟨hw, hc⟩ data hd hne datasize 1
      one_pos le_rfl
    exact ⟨st, g, g, rfl, hw, hc, e, e, le_rfl⟩
  | cons l ls ih =>
    obtain ⟨h0, h1⟩ := hl l (by simp)
    obtain ⟨s1, g, g1, e1, v1, eg, eg1, hle⟩ := mix_step hK inner V XV hin st ⟨hw, hc⟩ data hd hne
      datasize l h0 h1
    obtain ⟨st', g1', g', e2, v2, v3, eg2, eg', hle'⟩ := ih (fun l h => hl l (by simp [h])) s1 v1.1 v1.2
    rw [eg1] at eg2
    refine ⟨st', g, g', ?_, v2, v3, eg, eg', hle.trans ((Except.ok.inj eg2).symm ▸ hle')⟩
    rw [mixTrain, e1]
    exact e2

/-- C87, error branch: an empty batch. -/
theorem C87_empty_batch {K : ℕ} (inner : SetModel X K) (st : MixState inner) (datasize : ℤ) (l : ℝ) :
    mixElbo inner st [] datasize = .error .zeroDivision ∧
    mixStep inner st [] datasize l = .error .zeroDivision := ⟨rfl, rfl⟩

/-- A mixture of two categorical models. -/
noncomputable def demoMix : MixState (familySet (dirFam 2) 2) :=
  ⟨⟨[1, 1], [3, 1 / 2]⟩, fun m => ⟨[1, 1], if m = 0 then [4, 1] else [1 / 3, 1]⟩⟩

example : ∃ st' g g', mixTrain (familySet (dirFam 2) 2) [[1, 0], [0, 1], [2, 5]] 100 demoMix
      [1, 1 / 2, 1 / 10] = .ok st' ∧
    ParamValid (DirValid 2) st'.weights ∧ SetValid (DirValid 2) st'.comps ∧
    mixElbo (familySet (dirFam 2) 2) demoMix [[1, 0], [0, 1], [2, 5]] 100 = .ok g ∧
    mixElbo (familySet (dirFam 2) 2) st' [[1, 0], [0, 1], [2, 5]] 100 = .ok g' ∧ g ≤ g' := by
  refine C87_mixture_training (by norm_num) _ _ _ (C87_categoricalset (by norm_num) 2) _ ?_ (by simp)
    100 _ ?_ demoMix ?_ ?_
  · intro x hx
    simp at hx
    rcases hx with rfl | rfl | rfl <;> refine ⟨rfl, ?_⟩ <;> simp
  · intro l hl
    simp at hl
    rcases hl with rfl | rfl | rfl <;> norm_num
  · constructor <;> refine ⟨rfl, ?_⟩ <;> simp [demoMix]
  · intro m
    constructor
    · refine ⟨rfl, ?_⟩; simp [demoMix]
    · unfold demoMix
      dsimp only
      split_ifs <;> refine ⟨rfl, ?_⟩ <;> simp

/-! ## C88: HMMs -/

/-- C88: training an HMM whose emissions form a well-behaved set, on utterances for which the graph
has a path, with any sequence of learning rates in `(0, 1]`: no exception, valid parameters, and the
objective — the log-probabilities of the utterances, summed over all state sequences, minus the
divergence of the parameters — never decreases. -/
theorem C88_hmm_training {S : ℕ} (g : CGraph S) (inner : SetModel X S) (V : inner.State → Prop)
    (XV : X → Prop) (hin : Lawful inner V XV) (a : ℝ) (ha : 0 ≤ a) (utts : List (Utt X))
    (hu : ∀ u ∈ utts, (∀ t, XV (u.2 t)) ∧ Feasible g u) (scale : ℝ) (hs : 0 ≤ scale)
    (ls : List ℝ) (hl : ∀ l ∈ ls, 0 < l ∧ l ≤ 1) (st : inner.State) (hv : V st) :
    ∃ st', hmmTrain g inner a utts scale st ls = .ok st' ∧ V st' ∧
      hmmObjective g inner a utts scale st ≤ hmmObjective g inner a utts scale st' := by
  induction ls generalizing st with
  | nil => exact ⟨st, rfl, hv, le_rfl⟩
  | cons l ls ih =>
    obtain ⟨h0, h1⟩ := hl l (by simp)
    obtain ⟨s1, e1, v1, hle⟩ := hmm_step g inner V XV hin st hv a ha utts hu scale l hs h0 h1
    obtain ⟨st', e2, v2, hle'⟩ := ih (fun l h => hl l (by simp [h])) s1 v1
    refine ⟨st', ?_, v2, hle.trans hle'⟩
    rw [hmmTrain, e1]
    exact e2

/-- C88, error branch: an utterance for which the graph has no path stops the training. -/
theorem C88_infeasible {S : ℕ} (g : CGraph S) (inner : SetModel X S) (V : inner.State → Prop)
    (XV : X → Prop) (hin : Lawful inner V XV) (a : ℝ) (u : Utt X) (hx : ∀ t, XV (u.2 t))
    (hS : 0 < S) (hf : ¬ Feasible g u) (scale l : ℝ) (st : inner.State) (hv : V st) :
    hmmStep g inner st a [u] scale l = .error .valueError := by
  obtain ⟨K, rfl⟩ : ∃ K, S = K + 1 := ⟨S - 1, by omega⟩
  have hev : evidence g (asLog (scoresOf inner st a u)) = 0 := by
    have h0 : ∀ p : Fin (u.1 + 1) → Fin (K + 1), pathPrior g p = 0 := by
      have hz : ∑ p : Fin (u.1 + 1) → Fin (K + 1), pathPrior g p = 0 := by
        have : ¬ 0 < ∑ p : Fin (u.1 + 1) → Fin (K + 1), pathPrior g p := by
          rw [← evidence_prior]; exact hf
        exact le_antisymm (not_lt.1 this) (Finset.sum_nonneg fun p _ => pathPrior_nonneg g p)
      intro p
      exact (Finset.sum_eq_zero_iff_of_nonneg fun p _ => pathPrior_nonneg g p).1 hz p
        (Finset.mem_univ _)
    rw [evidence_real]
    exact Finset.sum_eq_zero fun p _ => by rw [h0, zero_mul]
  have hr : hmmRows g inner st a u = .error .valueError := by
    unfold hmmRows
    rw [hmmLlhs_eq inner V XV hin st hv a u hx]
    show (hmmResps g (scoresOf inner st a u) >>= _) = _
    unfold hmmResps
    simp only [seqFin, C11_zero_evidence_is_nan g _ hev]
    rfl
  unfold hmmStep
  rw [List.mapM_cons, hr]
  rfl

/-- Two states reached with probability one half each, whatever the previous one. -/
noncomputable def coinGraph : CGraph 2 where
  init := fun _ => ((log (1 / 2) : ℝ) : LogR)
  final := fun _ => ((0 : ℝ) : LogR)
  trans := fun _ _ => ((log (1 / 2) : ℝ) : LogR)

theorem coin_prior {n : ℕ} (p : Fin (n + 1) → Fin 2) : pathPrior coinGraph p = (1 / 2) ^ (n + 1) := by
  unfold pathPrior coinGraph
  simp only [lexp_coe, exp_zero, mul_one]
  rw [exp_log (by norm_num), Finset.prod_const, Finset.card_univ, Fintype.card_fin, pow_succ']

theorem coin_feasible (u : Utt X) : Feasible coinGraph u := by
  unfold Feasible
  rw [evidence_prior]
  exact Finset.sum_pos (fun p _ => by rw [coin_prior]; positivity) ⟨fun _ => 0, Finset.mem_univ _⟩

/-- Two categorical emissions at their priors. -/
noncomputable def coinState : (familySet (dirFam 2) 2).State :=
  fun m => if m = 0 then ⟨[2, 2], [2, 2]⟩ else ⟨[20, 1], [20, 1]⟩

theorem coin_valid : SetValid (DirValid 2) coinState := by
  intro m
  unfold coinState
  split_ifs <;> constructor <;> refine ⟨rfl, ?_⟩ <;> simp

/-- One frame showing the first category. -/
def coinUtt : Utt (List ℝ) := ⟨0, fun _ => [1, 0]⟩

theorem coinUtt_valid (t : Fin (coinUtt.1 + 1)) : CountsValid 2 (coinUtt.2 t) := by
  refine ⟨rfl, ?_⟩; simp [coinUtt]

example : ∃ st', hmmTrain coinGraph (familySet (dirFam 2) 2) (1 / 2) [coinUtt, ⟨2, fun _ => [0, 1]⟩] 10
      coinState [1, 1 / 2, 1 / 4] = .ok st' ∧ SetValid (DirValid 2) st' ∧
    hmmObjective coinGraph (familySet (dirFam 2) 2) (1 / 2) [coinUtt, ⟨2, fun _ => [0, 1]⟩] 10 coinState ≤
      hmmObjective coinGraph (familySet (dirFam 2) 2) (1 / 2) [coinUtt, ⟨2, fun _ => [0, 1]⟩] 10 st' := by
  refine C88_hmm_training _ _ _ _ (C87_categoricalset (by norm_num) 2) _ (by norm_num) _ ?_ _
    (by norm_num) _ ?_ _ coin_valid
  · intro u hu
    simp only [List.mem_cons, List.not_mem_nil, or_false] at hu
    rcases hu with rfl | rfl
    · exact ⟨coinUtt_valid, coin_feasible _⟩
    · refine ⟨fun t => ⟨rfl, ?_⟩, coin_feasible _⟩
      simp
  · intro l hl
    simp at hl
    rcases hl with rfl | rfl | rfl <;> norm_num

example : hmmStep ⟨fun _ => 0, fun _ => ⊥, fun _ _ => 0⟩ (familySet (dirFam 2) 2) coinState 1 [coinUtt] 1
    1 = .error .valueError := by
  refine C88_infeasible _ _ _ _ (C87_categoricalset (by norm_num) 2) 1 coinUtt coinUtt_valid
    (by norm_num) ?_ 1 1 coinState coin_valid
  unfold Feasible
  rw [evidence_prior]
  simp [pathPrior]

/-! ## C89: the value reported for an HMM -/

/-- C89: in a graph of sub-stochastic probabilities, the value of `evidence_lower_bound` for an HMM
is at least the scaled log-probability of the utterance minus the divergence: the entropy of the
state sequences and the transition scores are left out. -/
theorem C89_reported_ge_objective {S : ℕ} (g : CGraph S) (inner : SetModel X S)
    (V : inner.State → Prop) (XV : X → Prop) (hin : Lawful inner V XV) (a : ℝ) (u : Utt X)
    (hx : ∀ t, XV (u.2 t)) (hf : Feasible g u) (hi : ∑ s, lexp (g.init s) ≤ 1)
    (ht : ∀ s, ∑ s', lexp (g.trans s s') ≤ 1) (hfin : ∀ s, lexp (g.final s) ≤ 1) (datasize : ℤ)
    (st : inner.State) (hv : V st) :
    ∃ scale v, batchScale (u.1 + 1) datasize = .ok scale ∧ 0 < scale ∧
      hmmElbo g inner st a u datasize = .ok v ∧ hmmObjective g inner a [u] scale st ≤ v := by
  obtain ⟨scale, hs, hpos⟩ := batchScale_pos (Nat.succ_pos u.1) datasize
  obtain ⟨k, hk, _⟩ := hin.kl_ok st hv
  refine ⟨scale, scale * (∑ t, ∑ s, scoresOf inner st a u t s *
    gam g (scoresOf inner st a u) t s) - k, hs, hpos, ?_, ?_⟩
  · unfold hmmElbo
    have hs' : batchScale (u.1 + 1) datasize = .ok scale := hs
    rw [hs', ok_bind, hmmExpLlh_eq g inner V XV hin st hv a u hx hf,
      ok_bind, hk]
    rfl
  · have key := expected_score_ge g (scoresOf inner st a u)
      (evidence_pos_of_feasible g hf _) (paths_le_one g hi ht hfin)
    have o : hmmObjective g inner a [u] scale st =
        scale * log (evidence g (asLog (scoresOf inner st a u))) - k := by
      unfold hmmObjective
      rw [hk]
      simp only [List.map_cons, List.map_nil, List.sum_cons, List.sum_nil, add_zero]
      rfl
    rw [o]
    have := mul_le_mul_of_nonneg_left key hpos.le
    linarith

example : ∃ scale v, batchScale 1 50 = .ok scale ∧ 0 < scale ∧
    hmmElbo coinGraph (familySet (dirFam 2) 2) coinState 1 coinUtt 50 = .ok v ∧
    hmmObjective coinGraph (familySet (dirFam 2) 2) 1 [coinUtt] scale coinState ≤ v := by
  have h : ∑ _s : Fin 2, lexp ((log (1 / 2) : ℝ) : LogR) ≤ 1 := by
    rw [Fin.sum_univ_two, lexp_coe, exp_log (by norm_num)]
    norm_num
  exact C89_reported_ge_objective coinGraph _ _ _ (C87_categoricalset (by norm_num) 2) 1 coinUtt
    coinUtt_valid (coin_feasible _) h (fun _ => h) (fun _ => by simp [coinGraph, lexp_coe]) 50
    coinState coin_valid

theorem coin_scores : scoresOf (familySet (dirFam 2) 2) coinState 1 coinUtt =
    fun _ s => if s = 0 then -(5 / 6) else -(1 / 20) := by
  funext t s
  unfold scoresOf
  have hl := seqFin_ok (fun m => (dirFam 2).llh (coinState m) (coinUtt.2 t)) _ fun m =>
    (dirConj (D := 2) (by norm_num)).llh_eq _ _ (coin_valid m).2 (coinUtt_valid t)
  have hl' : (familySet (dirFam 2) 2).llh coinState (coinUtt.2 t) = _ := hl
  rw [hl', valueOf_ok, one_mul]
  show vdot (dirExpStats (coinState s).post) (catStats [1, 0]) + 0 = _
  have d : ∀ x : ℝ, 0 < x → digamma (x + 1) = digamma x + 1 / x := fun x hx => digamma_add_one hx
  have d2 := d 2 (by norm_num)
  have d3 := d 3 (by norm_num)
  have d20 := d 20 (by norm_num)
  norm_num at d2 d3 d20
  unfold coinState
  split_ifs with h
  · simp [vdot, dirExpStats, catStats]
    norm_num
    rw [d3, d2]
    ring
  · simp [vdot, dirExpStats, catStats]
    norm_num
    rw [d20]
    ring

/-- C89: the value reported for an HMM is not a lower bound of the log-probability of the data.
Two states of probability one half emit categories drawn from Dirichlet priors `(2, 2)` and
`(20, 1)`, the posteriors are the priors (no divergence) and one frame shows the first category.
Its probability is the mean of the two prior expectations, `(1/2 + 20/21) / 2`; the value
reported is larger than the log of it. -/
theorem C89_not_a_lower_bound :
    ∃ v, hmmElbo coinGraph (familySet (dirFam 2) 2) coinState 1 coinUtt (-1) = .ok v ∧
      log (1 / 2 * (dirMean (coinState 0).prior).headD 0 + 1 / 2 * (dirMean (coinState 1).prior).headD 0)
        < v := by
  have hL := C87_categoricalset (D := 2) (by norm_num) 2
  have hk : (familySet (dirFam 2) 2).kl coinState = .ok 0 := by
    have h := seqFin_ok (fun m => (dirFam 2).paramKl (coinState m)) (fun _ => 0) (by
      intro m
      have hpp : (coinState m).post = (coinState m).prior := by unfold coinState; split_ifs <;> rfl
      rw [(dirConj (D := 2) (by norm_num)).paramKl_eq _ (coin_valid m), hpp]
      unfold Conj.D
      rw [vdot_vsub _ _ _ rfl]
      congr 1
      ring)
    show (seqFin (fun m => (dirFam 2).paramKl (coinState m)) >>= _) = _
    rw [h]
    simp [bind, Except.bind]
  refine ⟨∑ t, ∑ s, scoresOf (familySet (dirFam 2) 2) coinState 1 coinUtt t s *
    gam coinGraph (scoresOf (familySet (dirFam 2) 2) coinState 1 coinUtt) t s, ?_, ?_⟩
  · unfold hmmElbo
    have hb : batchScale (coinUtt.1 + 1) (-1) = .ok 1 := by simp [batchScale, coinUtt]
    rw [hb, ok_bind, hmmExpLlh_eq coinGraph _ _ _ hL coinState coin_valid 1 coinUtt coinUtt_valid
      (coin_feasible _), ok_bind, hk]
    simp [bind, Except.bind]
  rw [coin_scores]
  have e0 : (dirMean (coinState 0).prior).headD 0 = 1 / 2 := by
    simp [coinState, dirMean]; norm_num
  have e1 : (dirMean (coinState 1).prior).headD 0 = 20 / 21 := by
    simp [coinState, dirMean]; norm_num
  rw [e0, e1]
  set v : Fin (coinUtt.1 + 1) → Fin 2 → ℝ := fun _ s => if s = 0 then -(5 / 6) else -(1 / 20) with hvdef
  set E := exp (47 / 60 : ℝ) with hE
  have hsum : ∀ f : (Fin (coinUtt.1 + 1) → Fin 2) → ℝ, ∑ p, f p = f (fun _ => 0) + f fun _ => 1 := by
    intro f
    show ∑ p : Fin 1 → Fin 2, f p = _
    rw [Fintype.sum_equiv (Equiv.funUnique (Fin 1) (Fin 2)) f (fun s => f fun _ => s) (by
      intro p
      congr 1
      funext i
      rw [Subsingleton.elim i 0]
      rfl), Fin.sum_univ_two]
  have hr : ∑ t, ∑ s, v t s * gam coinGraph v t s = -(1 / 20) - 47 / 60 * (1 / (1 + E)) := by
    have hg := sum_gam coinGraph v v
    have : ∑ t, ∑ s, v t s * gam coinGraph v t s = ∑ t, ∑ s, gam coinGraph v t s * v t s :=
      Finset.sum_congr rfl fun t _ => Finset.sum_congr rfl fun s _ => mul_comm _ _
    rw [this, hg, hsum, evidence_real, hsum]
    simp only [pathWeight_real, coin_prior]
    have hs1 : ∀ f : Fin (coinUtt.1 + 1) → ℝ, ∑ t, f t = f 0 := fun f => Fin.sum_univ_one f
    rw [hs1, hs1]
    simp only [hvdef]
    norm_num
    have h1 : exp (-(1 / 20) : ℝ) = E * exp (-(5 / 6) : ℝ) := by
      rw [hE, ← exp_add]; norm_num
    have hp := exp_pos (-(5 / 6) : ℝ)
    have hEp : 0 < E := exp_pos _
    norm_num at h1 hp ⊢
    rw [h1]
    field_simp
    ring
  rw [hr]
  have hE1 : (32 / 15 : ℝ) < E := by
    have h1 : E = exp (47 / 120 : ℝ) * exp (47 / 120 : ℝ) := by rw [hE, ← exp_add]; norm_num
    have h2 := quadratic_le_exp_of_nonneg (show (0 : ℝ) ≤ 47 / 120 by norm_num)
    have h3 : (1468 / 1000 : ℝ) ≤ exp (47 / 120 : ℝ) := by
      refine le_trans ?_ h2
      norm_num
    rw [h1]
    nlinarith
  have hlog : log (1 / 2 * (1 / 2) + 1 / 2 * (20 / 21) : ℝ) < -(3 / 10) := by
    rw [log_lt_iff_lt_exp (by norm_num)]
    have h1 : exp (-(3 / 10) : ℝ) = exp (-(1 / 10) : ℝ) ^ 3 := by
      rw [← exp_nat_mul]; norm_num
    have h2 : (9 / 10 : ℝ) ≤ exp (-(1 / 10) : ℝ) := by
      have := add_one_le_exp (-(1 / 10) : ℝ)
      linarith
    rw [h1]
    calc (1 / 2 * (1 / 2) + 1 / 2 * (20 / 21) : ℝ) < (9 / 10) ^ 3 := by norm_num
      _ ≤ _ := by gcongr
  have h4 : 1 / (1 + E) < 15 / 47 := by
    rw [div_lt_div_iff₀ (by linarith) (by norm_num)]
    linarith
  linarith

end Verif.Props
