import Verif.Lemmas.EvidenceTrain
import Verif.Props.VBTrain

/-!
# C166: the objectives of training bound the log-evidence, and trainings converge
-/

namespace Verif.Props

open Real MeasureTheory ProbabilityTheory Filter Topology Verif.Dists Verif.DistSpec Verif.Spec Verif.VB
open scoped ENNReal

variable {X : Type}

/-! ## One model: the evidence is reached by a full step -/

/-- C166: Normal models with diagonal covariance. -/
theorem C166_exact_diagonal {D : ℕ} (hD : 1 ≤ D) :
    ExactEvidence (ngFam D) (NGValid D) (fun x => x.length = D) (ngGen D) :=
  exact_evidence (ngConj hD) ng_marg fun _ h => h

/-- C166: Normal models with isotropic covariance. -/
theorem C166_exact_isotropic {D : ℕ} (hD : 1 ≤ D) :
    ExactEvidence (ingFam D) (INGValid D) (fun x => x.length = D) (ingGen D) :=
  exact_evidence (ingConj hD) ing_marg fun _ h => h

/-- C166: categorical models. -/
theorem C166_exact_categorical {D : ℕ} (hD : 1 ≤ D) :
    ExactEvidence (dirFam D) (DirValid D) (OneHot D) (dirGen D) :=
  exact_evidence (dirConj hD) (dir_marg hD) oneHot_counts

/-! ## Sets of models -/

/-- C166: sets of Normal models with diagonal covariance. -/
theorem C166_normalset_diagonal {D : ℕ} (hD : 1 ≤ D) (M : ℕ) :
    Bounds (familySet (ngFam D) M) (SetValid (NGValid D)) (fun x => x.length = D)
      (familyGen (ngGen D) M) :=
  familySet_bounds (ngConj hD) ng_marg (fun _ h => h) M

/-- C166: isotropic covariance. -/
theorem C166_normalset_isotropic {D : ℕ} (hD : 1 ≤ D) (M : ℕ) :
    Bounds (familySet (ingFam D) M) (SetValid (INGValid D)) (fun x => x.length = D)
      (familyGen (ingGen D) M) :=
  familySet_bounds (ingConj hD) ing_marg (fun _ h => h) M

/-- C166: sets of categorical models, on one-hot data. -/
theorem C166_categoricalset {D : ℕ} (hD : 1 ≤ D) (M : ℕ) :
    Lawful (familySet (dirFam D) M) (SetValid (DirValid D)) (OneHot D) ∧
    Bounds (familySet (dirFam D) M) (SetValid (DirValid D)) (OneHot D) (familyGen (dirGen D) M) :=
  ⟨(C87_categoricalset hD M).mono oneHot_counts,
    familySet_bounds (dirConj hD) (dir_marg hD) oneHot_counts M⟩

/-- C166: sets of mixtures. -/
theorem C166_mixtureset {M C : ℕ} (hC : 1 ≤ C) (inner : SetModel X (M * C)) (V : inner.State → Prop)
    (XV : X → Prop) (hin : Lawful inner V XV) (G : SetGen inner.State X (M * C))
    (hG : Bounds inner V XV G) :
    Bounds (mixtureSet M C inner) (fun st => SetValid (DirValid C) st.1 ∧ V st.2) XV (mixtureGen G) :=
  mixtureSet_bounds hC inner V XV hin G hG

/-- C166: a reordered or repeated set. -/
theorem C166_orderedset {M S : ℕ} (order : Fin S → Fin M) (inner : SetModel X M)
    (V : inner.State → Prop) (XV : X → Prop) (hin : Lawful inner V XV) (G : SetGen inner.State X M)
    (hG : Bounds inner V XV G) : Bounds (orderedSet order inner) V XV (orderedGen order G) :=
  orderedSet_bounds order inner V XV hin G hG

/-- C166: the concatenation of two sets. -/
theorem C166_jointset {M N : ℕ} (a : SetModel X M) (b : SetModel X N) (Va : a.State → Prop)
    (Vb : b.State → Prop) (XV : X → Prop) (ha : Lawful a Va XV) (hb : Lawful b Vb XV)
    (G : SetGen a.State X M) (H : SetGen b.State X N) (hG : Bounds a Va XV G) (hH : Bounds b Vb XV H) :
    Bounds (jointSet a b) (fun st => Va st.1 ∧ Vb st.2) XV (jointGen G H) :=
  jointSet_bounds a b Va Vb XV ha hb G H hG hH

/-! ## Mixtures and HMMs -/

/-- C166: `evidence_lower_bound` of a mixture on the whole data is at most the logarithm of the
probability density of the data, which is finite. -/
theorem C166_mixture_bound {K : ℕ} (hK : 1 ≤ K) (inner : SetModel X K) (V : inner.State → Prop)
    (XV : X → Prop) (hin : Lawful inner V XV) (G : SetGen inner.State X K) (hG : Bounds inner V XV G)
    (data : List X) (hd : ∀ x ∈ data, XV x) (hne : data ≠ []) (datasize : ℤ)
    (hz : datasize ≤ 0 ∨ datasize = data.length) (st : MixState inner)
    (hw : ParamValid (DirValid K) st.weights) (hc : V st.comps) :
    ∃ v, mixElbo inner st data datasize = .ok v ∧ mixEvidence G st data ≠ ⊤ ∧
      v ≤ log (mixEvidence G st data).toReal := by
  obtain ⟨h1, h2⟩ := mix_bound hK inner V XV hin G hG st ⟨hw, hc⟩ data hd hne datasize hz
  have e := mix_elbo_eq hK inner V XV hin st ⟨hw, hc⟩ data hd hne datasize hz
  rw [e, valueOf_ok] at h1
  exact ⟨_, e, h2, le_log_evidence h1 h2⟩

/-- C166: the objective of an HMM (acoustic scale and data scale one) is at most the logarithm of the
probability density of the utterances, which is finite. -/
theorem C166_hmm_bound {S : ℕ} (g : CGraph S) (inner : SetModel X S) (V : inner.State → Prop)
    (XV : X → Prop) (G : SetGen inner.State X S) (hG : Bounds inner V XV G)
    (utts : List (Utt X)) (hu : ∀ u ∈ utts, (∀ t, XV (u.2 t)) ∧ Feasible g u) (st : inner.State)
    (hv : V st) :
    hmmEvidence g G st utts ≠ ⊤ ∧
      hmmObjective g inner 1 utts 1 st ≤ log (hmmEvidence g G st utts).toReal := by
  obtain ⟨h1, h2⟩ := hmm_bound g inner V XV G hG st hv utts hu
  exact ⟨h2, le_log_evidence h1 h2⟩

/-- C166: however long a mixture is trained, with any learning rates in `(0, 1]`, the values of
`evidence_lower_bound` increase to a limit which is at most the log-evidence of the data. -/
theorem C166_mixture_converges {K : ℕ} (hK : 1 ≤ K) (inner : SetModel X K) (V : inner.State → Prop)
    (XV : X → Prop) (hin : Lawful inner V XV) (G : SetGen inner.State X K) (hG : Bounds inner V XV G)
    (data : List X) (hd : ∀ x ∈ data, XV x) (hne : data ≠ []) (datasize : ℤ)
    (hz : datasize ≤ 0 ∨ datasize = data.length) (ls : ℕ → ℝ) (hl : ∀ n, 0 < ls n ∧ ls n ≤ 1)
    (st : MixState inner) (hw : ParamValid (DirValid K) st.weights) (hc : V st.comps) :
    ∃ (sts : ℕ → MixState inner) (vs : ℕ → ℝ) (L : ℝ), sts 0 = st ∧
      (∀ n, mixStep inner (sts n) data datasize (ls n) = .ok (sts (n + 1))) ∧
      (∀ n, mixElbo inner (sts n) data datasize = .ok (vs n)) ∧ Monotone vs ∧
      Tendsto vs atTop (𝓝 L) ∧ L ≤ log (mixEvidence G st data).toReal := by
  obtain ⟨seq, L, h0, h1, h2, h3, h4, h5⟩ := climb
    (fun s : MixState inner => MixValid inner V s ∧ mixEvidence G s data = mixEvidence G st data)
    (fun l s => mixStep inner s data datasize l)
    (fun s => valueOf 0 (mixElbo inner s data datasize)) (log (mixEvidence G st data).toReal)
    (fun s hs => by
      obtain ⟨v, e, _, h⟩ := C166_mixture_bound hK inner V XV hin G hG data hd hne datasize hz s hs.1.1
        hs.1.2
      rw [e, valueOf_ok, ← hs.2]
      exact h)
    (fun l s a b hs => by
      obtain ⟨s', g, g', e1, v1, e2, e3, hle⟩ := mix_step hK inner V XV hin s hs.1 data hd hne datasize
        l a b
      exact ⟨s', e1, ⟨v1, (mixEvidence_step hG e1 data).trans hs.2⟩, by
        rw [e2, e3]; exact hle⟩)
    ls hl st ⟨⟨hw, hc⟩, rfl⟩
  refine ⟨seq, _, L, h0, h1, fun n => ?_, h3, h4, h5⟩
  obtain ⟨v, e, _⟩ := C166_mixture_bound hK inner V XV hin G hG data hd hne datasize hz (seq n)
    (h2 n).1.1 (h2 n).1.2
  rw [e]
  rfl

/-- C166: the same for the objective of an HMM. -/
theorem C166_hmm_converges {S : ℕ} (g : CGraph S) (inner : SetModel X S) (V : inner.State → Prop)
    (XV : X → Prop) (hin : Lawful inner V XV) (G : SetGen inner.State X S) (hG : Bounds inner V XV G)
    (utts : List (Utt X)) (hu : ∀ u ∈ utts, (∀ t, XV (u.2 t)) ∧ Feasible g u) (ls : ℕ → ℝ)
    (hl : ∀ n, 0 < ls n ∧ ls n ≤ 1) (st : inner.State) (hv : V st) :
    ∃ (sts : ℕ → inner.State) (L : ℝ), sts 0 = st ∧
      (∀ n, hmmStep g inner (sts n) 1 utts 1 (ls n) = .ok (sts (n + 1))) ∧
      Monotone (fun n => hmmObjective g inner 1 utts 1 (sts n)) ∧
      Tendsto (fun n => hmmObjective g inner 1 utts 1 (sts n)) atTop (𝓝 L) ∧
      L ≤ log (hmmEvidence g G st utts).toReal := by
  obtain ⟨seq, L, h0, h1, _, h3, h4, h5⟩ := climb
    (fun s : inner.State => V s ∧ hmmEvidence g G s utts = hmmEvidence g G st utts)
    (fun l s => hmmStep g inner s 1 utts 1 l)
    (fun s => hmmObjective g inner 1 utts 1 s) (log (hmmEvidence g G st utts).toReal)
    (fun s hs => by
      rw [← hs.2]
      exact (C166_hmm_bound g inner V XV G hG utts hu s hs.1).2)
    (fun l s a b hs => by
      obtain ⟨s', e1, v1, hle⟩ := hmm_step g inner V XV hin s hs.1 1 zero_le_one utts hu 1 l zero_le_one
        a b
      exact ⟨s', e1, ⟨v1, (hmmEvidence_step hG e1 utts).trans hs.2⟩, hle⟩)
    ls hl st ⟨hv, rfl⟩
  exact ⟨seq, L, h0, h1, h3, h4, h5⟩

/-! ## Examples -/

/-- A mixture of two one-dimensional Normal models. -/
noncomputable def demoGauss : MixState (familySet (ngFam 1) 2) :=
  ⟨⟨[1, 1], [3, 1 / 2]⟩, fun m => ⟨⟨[0], 1, 1, [1]⟩, ⟨[if m = 0 then -1 else 2], 5, 3, [2]⟩⟩⟩

theorem demoGauss_valid : ParamValid (DirValid 2) demoGauss.weights ∧
    SetValid (NGValid 1) demoGauss.comps := by
  constructor
  · constructor <;> refine ⟨rfl, ?_⟩ <;> simp [demoGauss]
  · intro m
    constructor <;> refine ⟨rfl, rfl, ?_, ?_, ?_⟩ <;> simp [demoGauss]

example : ∃ (sts : ℕ → MixState (familySet (ngFam 1) 2)) (vs : ℕ → ℝ) (L : ℝ), sts 0 = demoGauss ∧
    (∀ n : ℕ, mixStep (familySet (ngFam 1) 2) (sts n) [[1], [-2], [5 / 2]] (-1) (1 / ((n : ℝ) + 1)) =
      .ok (sts (n + 1))) ∧
    (∀ n, mixElbo (familySet (ngFam 1) 2) (sts n) [[1], [-2], [5 / 2]] (-1) = .ok (vs n)) ∧
    Monotone vs ∧ Tendsto vs atTop (𝓝 L) ∧
    L ≤ log (mixEvidence (familyGen (ngGen 1) 2) demoGauss [[1], [-2], [5 / 2]]).toReal := by
  refine C166_mixture_converges (by norm_num) _ _ _ (C87_normalset_diagonal le_rfl 2) _
    (C166_normalset_diagonal le_rfl 2) _ ?_ (by simp) (-1) (Or.inl (by norm_num)) _ ?_ demoGauss
    demoGauss_valid.1 demoGauss_valid.2
  · intro x hx
    simp at hx
    rcases hx with rfl | rfl | rfl <;> rfl
  · intro n
    have h : (0 : ℝ) < (n : ℝ) + 1 := by positivity
    refine ⟨by positivity, ?_⟩
    rw [div_le_one h]
    have : (0 : ℝ) ≤ n := by positivity
    linarith

/-- Normal data seen through a posterior that is not the best one: the gap is the divergence. -/
example : ∃ best g g' k, (ngFam 1).update ⟨⟨[0], 1, 1, [1]⟩, ⟨[3], 2, 5, [1 / 2]⟩⟩
      (wsum (ngFam 1).sdim ([[1], [-2]].map fun x => (1, (ngFam 1).stats x))) 1 =
        .ok ⟨⟨[0], 1, 1, [1]⟩, best⟩ ∧
    paramObjective (ngFam 1) ⟨⟨[0], 1, 1, [1]⟩, ⟨[3], 2, 5, [1 / 2]⟩⟩ [(1, [1]), (1, [-2])] 1 = .ok g ∧
    (ngFam 1).kl ⟨[3], 2, 5, [1 / 2]⟩ best = .ok k ∧ 0 ≤ k ∧ g' = g + k ∧
    ∫⁻ θ, (([[1], [-2]] : List (List ℝ)).map fun x => (ngGen 1).dens θ x).prod
      ∂(ngGen 1).law ⟨[0], 1, 1, [1]⟩ = ENNReal.ofReal (exp g') := by
  obtain ⟨_, best, g, g', k, e1, e2, _, e3, e4, e5, e6⟩ := C166_exact_diagonal le_rfl
    ⟨⟨[0], 1, 1, [1]⟩, ⟨[3], 2, 5, [1 / 2]⟩⟩ [[1], [-2]]
    ⟨⟨rfl, rfl, by norm_num, by norm_num, by simp⟩, ⟨rfl, rfl, by norm_num, by norm_num, by simp⟩⟩
    (by simp)
  exact ⟨best, g, g', k, e1, e2, e3, e4, e5, e6⟩

/-- The evidence of one toss of a coin of uniform bias is one half. -/
example : ∫⁻ θ, (([[1, 0]] : List (List ℝ)).map fun x => (dirGen 2).dens θ x).prod
    ∂(dirGen 2).law [1, 1] = ENNReal.ofReal (1 / 2) := by
  obtain ⟨_, best, g, g', k, hu, _, hg', _, _, _, e⟩ := C166_exact_categorical (D := 2) (by norm_num)
    ⟨[1, 1], [1, 1]⟩ [[1, 0]] ⟨⟨rfl, by simp⟩, ⟨rfl, by simp⟩⟩ (by
      intro x hx
      simp at hx
      subst hx
      exact ⟨0, by simp⟩)
  obtain ⟨b, a0, a1, _, n0, n1, ho, hq⟩ := C90_dirichlet_optimal (D := 2) (by norm_num) [1, 1]
    [(1, [1, 0])] 1 ⟨rfl, by simp⟩ (by simp [CountsValid]) zero_le_one
  obtain ⟨_, hu', _⟩ := hq [1, 1] ⟨rfl, by simp⟩
  have hb : (⟨[1, 1], best⟩ : CParam (List ℝ)) = ⟨[1, 1], b⟩ := by
    refine Except.ok.inj (hu.symm.trans (Eq.trans ?_ hu'))
    rw [vsmul_one]
    rfl
  have hb2 : b = [2, 1] := by
    have h : (dirFam 2).update ⟨[1, 1], [1, 1]⟩ (vsmul 1 (wsum (dirFam 2).sdim ([((1 : ℝ), [1, 0])].map
        fun r => (r.1, (dirFam 2).stats r.2)))) 1 = .ok ⟨[1, 1], [2, 1]⟩ := by
      simp [Family.update, dirFam, dirNatural, dirFromNatural, catStats, wsum, vsmul, vadd, vsub, Bind.bind,
        Except.bind]
      norm_num
    exact (congrArg CParam.post (Except.ok.inj (h.symm.trans hu'))).symm
  have h1 : g' = a1 - a0 := by
    have := Except.ok.inj (hg'.symm.trans ((congrArg (fun c => paramObjective (dirFam 2) c
      [(1, [1, 0])] 1) hb).trans ho))
    simpa using this
  have hn0 := Except.ok.inj n0
  have hn1 := Except.ok.inj n1
  rw [hb2] at hn1
  rw [e, h1, ← hn0, ← hn1]
  congr 1
  have h2 : Real.Gamma 2 = 1 := by
    rw [show (2 : ℝ) = 1 + 1 by norm_num, Real.Gamma_add_one one_ne_zero, Real.Gamma_one]; norm_num
  have h3 : Real.Gamma 3 = 2 := by
    rw [show (3 : ℝ) = 2 + 1 by norm_num, Real.Gamma_add_one two_ne_zero, h2]; norm_num
  have e1 : dirLogNorm [2, 1] = -log 2 := by
    unfold dirLogNorm lgamma
    norm_num [h2, h3]
  have e0 : dirLogNorm [1, 1] = 0 := by
    unfold dirLogNorm lgamma
    norm_num [h2]
  rw [e1, e0, sub_zero, exp_neg, exp_log two_pos]
  norm_num

/-- Two states, each a mixture of two one-dimensional Normal models. -/
noncomputable def demoGmmStates : (mixtureSet 2 2 (familySet (ngFam 1) (2 * 2))).State :=
  ⟨fun _ => ⟨[1, 1], [2, 3]⟩, fun m => ⟨⟨[0], 1, 1, [1]⟩, ⟨[if m = 0 then -1 else 2], 5, 3, [2]⟩⟩⟩

example : hmmObjective coinGraph (mixtureSet 2 2 (familySet (ngFam 1) (2 * 2))) 1
      [⟨1, fun t => if t = 0 then [1] else [-3]⟩, ⟨4, fun _ => [2]⟩] 1 demoGmmStates ≤
    log (hmmEvidence coinGraph (mixtureGen (familyGen (ngGen 1) (2 * 2))) demoGmmStates
      [⟨1, fun t => if t = 0 then [1] else [-3]⟩, ⟨4, fun _ => [2]⟩]).toReal := by
  refine (C166_hmm_bound coinGraph _ _ _ _ (C166_mixtureset (by norm_num) _ _ _
    (C87_normalset_diagonal le_rfl (2 * 2)) _ (C166_normalset_diagonal le_rfl (2 * 2))) _ ?_
    demoGmmStates ⟨?_, ?_⟩).2
  · intro u hu
    simp only [List.mem_cons, List.not_mem_nil, or_false] at hu
    rcases hu with rfl | rfl
    · refine ⟨fun t => ?_, coin_feasible _⟩
      dsimp only
      split_ifs <;> rfl
    · exact ⟨fun t => rfl, coin_feasible _⟩
  · intro m
    constructor <;> refine ⟨rfl, ?_⟩ <;> simp [demoGmmStates]
  · intro m
    constructor <;> refine ⟨rfl, rfl, ?_, ?_, ?_⟩ <;> simp [demoGmmStates]

end Verif.Props
