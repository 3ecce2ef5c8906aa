import Verif.Lemmas.Stall
import Verif.Props.WeightedFit

/-!
# C172 — training stalls only at a fixed point
-/

namespace Verif.Props

open Real Verif.VB Verif.Dists Verif.DistSpec Verif.FitSpec Verif.Mixture Verif.Spec

variable {X : Type} {D M K : ℕ}

/-! ## Which sets are concerned -/

/-- **C172.** Sets of Normal models with diagonal covariances. -/
theorem C172_normalset_diagonal (hD : 1 ≤ D) (M : ℕ) :
    Strict (familySet (ngFam D) M) (SetValid (NGValid D)) (fun x => x.length = D) :=
  familySet_strict (ngConj hD) (ng_kl_zero hD) M

/-- **C172.** Isotropic covariances. -/
theorem C172_normalset_isotropic (hD : 1 ≤ D) (M : ℕ) :
    Strict (familySet (ingFam D) M) (SetValid (INGValid D)) (fun x => x.length = D) :=
  familySet_strict (ingConj hD) (ing_kl_zero hD) M

/-- **C172.** Full covariances. -/
theorem C172_normalset_full (hD : 1 ≤ D) (M : ℕ) :
    Strict (familySet (nwFam D) M) (SetValid (NWValidD D)) (fun _ => True) :=
  familySet_strict nwConj (nw_kl_zero hD) M

/-- **C172.** Sets of categorical models, of at least two categories. -/
theorem C172_categoricalset (hD : 2 ≤ D) (M : ℕ) :
    Strict (familySet (dirFam D) M) (SetValid (DirValid D)) (CountsValid D) :=
  familySet_strict (dirConj (by omega)) (dir_kl_zero hD) M

/-- **C172.** Sets of mixtures of at least two components. -/
theorem C172_mixtureset {C : ℕ} (hC : 2 ≤ C) (inner : SetModel X (M * C)) (V : inner.State → Prop) (XV : X → Prop)
    (h : Lawful inner V XV) (hs : Strict inner V XV) :
    Strict (mixtureSet M C inner) (fun st => SetValid (DirValid C) st.1 ∧ V st.2) XV :=
  mixtureSet_strict hC inner V XV h hs

/-- **C172.** A reordered or repeated set. -/
theorem C172_orderedset {S : ℕ} (order : Fin S → Fin M) (inner : SetModel X M) (V : inner.State → Prop) (XV : X → Prop)
    (h : Lawful inner V XV) (hs : Strict inner V XV) : Strict (orderedSet order inner) V XV :=
  orderedSet_strict order inner V XV h hs

/-- **C172.** The concatenation of two sets. -/
theorem C172_jointset {N : ℕ} (a : SetModel X M) (b : SetModel X N) (Va : a.State → Prop) (Vb : b.State → Prop) (XV : X → Prop)
    (ha : Lawful a Va XV) (hb : Lawful b Vb XV) (sa : Strict a Va XV) (sb : Strict b Vb XV) :
    Strict (jointSet a b) (fun st => Va st.1 ∧ Vb st.2) XV := jointSet_strict a b Va Vb XV ha hb sa sb

/-! ## Mixtures -/

theorem mixTrain_fixed (inner : SetModel X K) (st : MixState inner) (data : List X) (datasize : ℤ)
    (h : ∀ l, 0 < l → l ≤ 1 → mixStep inner st data datasize l = .ok st) (ls : List ℝ) (hl : ∀ l ∈ ls, 0 < l ∧ l ≤ 1) :
    mixTrain inner data datasize st ls = .ok st := by
  induction ls with
  | nil => rfl
  | cons l ls ih =>
    obtain ⟨h0, h1⟩ := hl l (by simp)
    rw [mixTrain, h l h0 h1]
    exact ih fun l h => hl l (by simp [h])

theorem mixTrain_stall (hK : 2 ≤ K) (inner : SetModel X K) (V : inner.State → Prop) (XV : X → Prop) (hin : Lawful inner V XV)
    (hst : Strict inner V XV) (data : List X) (hd : ∀ x ∈ data, XV x) (hne : data ≠ []) (datasize : ℤ) (ls : List ℝ)
    (hl : ∀ l ∈ ls, 0 < l ∧ l ≤ 1) (st : MixState inner) (hv : MixValid inner V st) :
    ∃ st' g g', mixTrain inner data datasize st ls = .ok st' ∧ mixElbo inner st data datasize = .ok g ∧
      mixElbo inner st' data datasize = .ok g' ∧ g ≤ g' ∧ (g' ≤ g → st' = st ∧
        (ls ≠ [] → ∀ l, 0 < l → l ≤ 1 → mixStep inner st data datasize l = .ok st)) := by
  induction ls generalizing st with
  | nil =>
    obtain ⟨_, g, _, _, _, e, _⟩ := mix_stall hK inner V XV hin hst st hv data hd hne datasize 1 one_pos le_rfl
    exact ⟨st, g, g, rfl, e, e, le_rfl, fun _ => ⟨rfl, fun h => absurd rfl h⟩⟩
  | cons l ls ih =>
    obtain ⟨h0, h1⟩ := hl l (by simp)
    obtain ⟨s1, g, g1, e1, v1, eg, eg1, hle, hs⟩ := mix_stall hK inner V XV hin hst st hv data hd hne datasize l h0 h1
    obtain ⟨st', g1', g', e2, f1, f2, hle', hs'⟩ := ih (fun l h => hl l (by simp [h])) s1 v1
    obtain rfl := Except.ok.inj (eg1.symm.trans f1)
    refine ⟨st', g, g', by rw [mixTrain, e1]; exact e2, eg, f2, hle.trans hle', fun h => ?_⟩
    obtain ⟨a1, a2⟩ := hs (by linarith)
    obtain ⟨b1, -⟩ := hs' (by linarith)
    exact ⟨b1.trans a1, fun _ => a2⟩

/-- **C172, mixtures.** Training a mixture of at least two components, on a non-empty batch, with learning rates in `(0, 1]`, at
least one of them: `evidence_lower_bound` is unchanged exactly when the parameters are; and then no training on this batch, with
any learning rates, changes anything. -/
theorem C172_mixture (hK : 2 ≤ K) (inner : SetModel X K) (V : inner.State → Prop) (XV : X → Prop) (hin : Lawful inner V XV)
    (hst : Strict inner V XV) (data : List X) (hd : ∀ x ∈ data, XV x) (hne : data ≠ []) (datasize : ℤ) (ls : List ℝ)
    (hl : ∀ l ∈ ls, 0 < l ∧ l ≤ 1) (hls : ls ≠ []) (st : MixState inner) (hw : ParamValid (DirValid K) st.weights)
    (hc : V st.comps) :
    ∃ st' g g', mixTrain inner data datasize st ls = .ok st' ∧ mixElbo inner st data datasize = .ok g ∧
      mixElbo inner st' data datasize = .ok g' ∧ (st' ≠ st → g < g') ∧
      (st' = st → ∀ ls', (∀ l ∈ ls', 0 < l ∧ l ≤ 1) → mixTrain inner data datasize st ls' = .ok st) := by
  obtain ⟨st', g, g', e1, e2, e3, hle, h⟩ := mixTrain_stall hK inner V XV hin hst data hd hne datasize ls hl st ⟨hw, hc⟩
  refine ⟨st', g, g', e1, e2, e3, fun hn => ?_, fun hs ls' hl' => ?_⟩
  · by_contra hg
    exact hn (h (not_lt.1 hg)).1
  · subst hs
    obtain rfl := Except.ok.inj (e2.symm.trans e3)
    exact mixTrain_fixed inner st' data datasize ((h le_rfl).2 hls) ls' hl'

/-! ## HMMs -/

theorem hmmTrain_fixed {S : ℕ} (g : CGraph S) (inner : SetModel X S) (st : inner.State) (a : ℝ) (utts : List (Utt X)) (scale : ℝ)
    (h : ∀ l, 0 < l → l ≤ 1 → hmmStep g inner st a utts scale l = .ok st) (ls : List ℝ) (hl : ∀ l ∈ ls, 0 < l ∧ l ≤ 1) :
    hmmTrain g inner a utts scale st ls = .ok st := by
  induction ls with
  | nil => rfl
  | cons l ls ih =>
    obtain ⟨h0, h1⟩ := hl l (by simp)
    rw [hmmTrain, h l h0 h1]
    exact ih fun l h => hl l (by simp [h])

theorem hmmTrain_stall {S : ℕ} (g : CGraph S) (inner : SetModel X S) (V : inner.State → Prop) (XV : X → Prop)
    (hin : Lawful inner V XV) (hst : Strict inner V XV) (a : ℝ) (ha : 0 ≤ a) (utts : List (Utt X))
    (hu : ∀ u ∈ utts, (∀ t, XV (u.2 t)) ∧ Feasible g u) (scale : ℝ) (hs : 0 ≤ scale) (ls : List ℝ)
    (hl : ∀ l ∈ ls, 0 < l ∧ l ≤ 1) (st : inner.State) (hv : V st) :
    ∃ st', hmmTrain g inner a utts scale st ls = .ok st' ∧
      hmmObjective g inner a utts scale st ≤ hmmObjective g inner a utts scale st' ∧
      (hmmObjective g inner a utts scale st' ≤ hmmObjective g inner a utts scale st → st' = st ∧
        (ls ≠ [] → ∀ l, 0 < l → l ≤ 1 → hmmStep g inner st a utts scale l = .ok st)) := by
  induction ls generalizing st with
  | nil => exact ⟨st, rfl, le_rfl, fun _ => ⟨rfl, fun h => absurd rfl h⟩⟩
  | cons l ls ih =>
    obtain ⟨h0, h1⟩ := hl l (by simp)
    obtain ⟨s1, e1, v1, hle, hz⟩ := hmm_stall g inner V XV hin hst st hv a ha utts hu scale l hs h0 h1
    obtain ⟨st', e2, hle', hz'⟩ := ih (fun l h => hl l (by simp [h])) s1 v1
    refine ⟨st', by rw [hmmTrain, e1]; exact e2, hle.trans hle', fun h => ?_⟩
    obtain ⟨a1, a2⟩ := hz (by linarith)
    obtain ⟨b1, -⟩ := hz' (by linarith)
    exact ⟨b1.trans a1, fun _ => a2⟩

/-- **C172, HMMs.** The same for the states of an HMM, whatever the acoustic scale, and the objective
`scale · Σ log p(utterance) − KL`. -/
theorem C172_hmm {S : ℕ} (g : CGraph S) (inner : SetModel X S) (V : inner.State → Prop) (XV : X → Prop)
    (hin : Lawful inner V XV) (hst : Strict inner V XV) (a : ℝ) (ha : 0 ≤ a) (utts : List (Utt X))
    (hu : ∀ u ∈ utts, (∀ t, XV (u.2 t)) ∧ Feasible g u) (scale : ℝ) (hs : 0 ≤ scale) (ls : List ℝ)
    (hl : ∀ l ∈ ls, 0 < l ∧ l ≤ 1) (hls : ls ≠ []) (st : inner.State) (hv : V st) :
    ∃ st', hmmTrain g inner a utts scale st ls = .ok st' ∧
      (st' ≠ st → hmmObjective g inner a utts scale st < hmmObjective g inner a utts scale st') ∧
      (st' = st → ∀ ls', (∀ l ∈ ls', 0 < l ∧ l ≤ 1) → hmmTrain g inner a utts scale st ls' = .ok st) := by
  obtain ⟨st', e1, hle, h⟩ := hmmTrain_stall g inner V XV hin hst a ha utts hu scale hs ls hl st hv
  refine ⟨st', e1, fun hn => ?_, fun hz ls' hl' => ?_⟩
  · by_contra hg
    exact hn (h (not_lt.1 hg)).1
  · subst hz
    exact hmmTrain_fixed g inner st' a utts scale ((h le_rfl).2 hls) ls' hl'

/-- **C172, HMMs of mixtures.** The recipes' models — every state emits by a mixture of at least two Normal models with diagonal
covariances, and several states may share a mixture. -/
theorem C172_hmm_mixtures {S C : ℕ} (g : CGraph S) (hD : 1 ≤ D) (hC : 2 ≤ C) (order : Fin S → Fin M) (a : ℝ) (ha : 0 ≤ a)
    (utts : List (Utt (List ℝ))) (hu : ∀ u ∈ utts, (∀ t, (u.2 t).length = D) ∧ Feasible g u) (scale : ℝ) (hs : 0 ≤ scale)
    (ls : List ℝ) (hl : ∀ l ∈ ls, 0 < l ∧ l ≤ 1) (hls : ls ≠ [])
    (st : (orderedSet order (mixtureSet M C (familySet (ngFam D) (M * C)))).State)
    (hw : SetValid (DirValid C) st.1) (hc : SetValid (NGValid D) st.2) :
    ∃ st', hmmTrain g (orderedSet order (mixtureSet M C (familySet (ngFam D) (M * C)))) a utts scale st ls = .ok st' ∧
      (st' ≠ st → hmmObjective g (orderedSet order (mixtureSet M C (familySet (ngFam D) (M * C)))) a utts scale st <
        hmmObjective g (orderedSet order (mixtureSet M C (familySet (ngFam D) (M * C)))) a utts scale st') ∧
      (st' = st → ∀ ls', (∀ l ∈ ls', 0 < l ∧ l ≤ 1) →
        hmmTrain g (orderedSet order (mixtureSet M C (familySet (ngFam D) (M * C)))) a utts scale st ls' = .ok st) := by
  have h0 := C87_normalset_diagonal hD (M * C)
  have h1 := C87_mixtureset (by omega) _ _ _ h0
  have s1 := C172_mixtureset hC _ _ _ h0 (C172_normalset_diagonal hD (M * C))
  exact C172_hmm g _ _ _ (C87_orderedset order _ _ _ h1) (C172_orderedset order _ _ _ h1 s1) a ha utts hu scale hs ls hl hls st
    ⟨hw, hc⟩

/-! ## What a stalled model is -/

/-- **C172.** A mixture of Normal models whose `evidence_lower_bound` a training step leaves unchanged is in equilibrium with the
data: every component is its prior pooled with its own share of the data, and the weights are the counts of those shares. -/
theorem C172_equilibrium (hD : 1 ≤ D) (hK : 2 ≤ K) (st : MixState (familySet (ngFam D) K))
    (hv : MixValid (familySet (ngFam D) K) (SetValid (NGValid D)) st) (data : List (Fin D → ℝ)) (hne : data ≠ [])
    (datasize : ℤ) (l : ℝ) (h0 : 0 < l) (h1 : l ≤ 1) (st' : MixState (familySet (ngFam D) K))
    (hs : mixStep (familySet (ngFam D) K) st (data.map List.ofFn) datasize l = .ok st')
    (hg : mixElbo (familySet (ngFam D) K) st' (data.map List.ofFn) datasize =
      mixElbo (familySet (ngFam D) K) st (data.map List.ofFn) datasize) :
    ∃ lw v, logWeights K st.weights.post = .ok lw ∧
      (∀ x, (familySet (ngFam D) K).llh st.comps (List.ofFn x) = .ok (v x)) ∧
      MixRefit .diagonal (fun p => p.scale) (fun p i => p.mean.getD i 0) diagFit st st data datasize lw v := by
  have hd : ∀ x ∈ data.map List.ofFn, x.length = D := by
    intro x hx
    obtain ⟨y, -, rfl⟩ := List.mem_map.1 hx
    simp
  obtain ⟨s1, g, g', e1, -, e2, e3, -, h⟩ := mix_stall hK _ _ _ (C87_normalset_diagonal hD K) (C172_normalset_diagonal hD K) st hv
    (data.map List.ofFn) hd (by simpa using hne) datasize l h0 h1
  obtain rfl := Except.ok.inj (e1.symm.trans hs)
  rw [e2, e3] at hg
  obtain ⟨lw, v, s2, f1, f2, f3, f4⟩ := C171_mixture_diagonal hD (by omega) st hv data hne datasize
  have := (h (Except.ok.inj hg).le).2 1 one_pos le_rfl
  obtain rfl := Except.ok.inj (this.symm.trans f3)
  exact ⟨lw, v, f1, f2, f4⟩

/-- **C172.** A mixture whose components are still at their priors is not in equilibrium: the first step of a training, whatever
its learning rate, increases `evidence_lower_bound`. -/
theorem C172_first_step (hD : 1 ≤ D) (hK : 2 ≤ K) (st : MixState (familySet (ngFam D) K))
    (hv : MixValid (familySet (ngFam D) K) (SetValid (NGValid D)) st) (hprior : ∀ k, (st.comps k).post = (st.comps k).prior)
    (data : List (Fin D → ℝ)) (hne : data ≠ []) (datasize : ℤ) (l : ℝ) (h0 : 0 < l) (h1 : l ≤ 1) :
    ∃ st' g g', mixStep (familySet (ngFam D) K) st (data.map List.ofFn) datasize l = .ok st' ∧
      mixElbo (familySet (ngFam D) K) st (data.map List.ofFn) datasize = .ok g ∧
      mixElbo (familySet (ngFam D) K) st' (data.map List.ofFn) datasize = .ok g' ∧ g < g' := by
  have hd : ∀ x ∈ data.map List.ofFn, x.length = D := by
    intro x hx
    obtain ⟨y, -, rfl⟩ := List.mem_map.1 hx
    simp
  obtain ⟨st', g, g', e1, -, e2, e3, hle, -⟩ := mix_stall hK _ _ _ (C87_normalset_diagonal hD K) (C172_normalset_diagonal hD K) st
    hv (data.map List.ofFn) hd (by simpa using hne) datasize l h0 h1
  refine ⟨st', g, g', e1, e2, e3, lt_of_le_of_ne hle fun hg => ?_⟩
  obtain ⟨lw, v, -, -, hr, -, ht, -⟩ := C172_equilibrium hD hK st hv data hne datasize l h0 h1 st' e1 (by rw [e2, e3, hg])
  have hz : ∀ k, total (weighted (effSize data datasize / data.length) (data.map fun x => (x, share lw (v x))) k) = 0 := by
    intro k
    have := (hr k).2.1
    simp only [hprior] at this
    linarith
  rw [Finset.sum_eq_zero fun k _ => hz k] at ht
  exact (effSize_pos data datasize hne).ne ht

/-- **C172.** Identical components in equilibrium: on any data, the mixture of `K` copies of one Normal model, trained on a `K`-th
of the data, with equal weights, is left unchanged by any training. -/
theorem C172_identical_components (hD : 1 ≤ D) (hK : 2 ≤ K) (data : List (Fin D → ℝ)) (hne : data ≠ []) (datasize : ℤ) (p0 : NG ℝ)
    (h0 : NGValid D p0) (c : ℝ) (hc : 0 < c) :
    ∃ best, NGValid D best ∧ ∀ ls, (∀ l ∈ ls, 0 < l ∧ l ≤ 1) →
      mixTrain (familySet (ngFam D) K) (data.map List.ofFn) datasize
        ⟨⟨List.replicate K c, List.replicate K (c + effSize data datasize / K)⟩, fun _ => ⟨p0, best⟩⟩ ls =
      .ok ⟨⟨List.replicate K c, List.replicate K (c + effSize data datasize / K)⟩, fun _ => ⟨p0, best⟩⟩ := by
  have hn := effSize_pos data datasize hne
  have hlen : (0 : ℝ) < data.length := by exact_mod_cast List.length_pos_of_ne_nil hne
  have hK0 : (0 : ℝ) < K := by exact_mod_cast (by omega : 0 < K)
  obtain ⟨best, a0, a1, vb, -, -, -, hb⟩ := (ngConj hD).oneStepOptimal p0 ((data.map List.ofFn).map fun x => ((1 / K : ℝ), x))
    (effSize data datasize / data.length) h0 (by
      intro r h
      obtain ⟨x, hx, rfl⟩ := List.mem_map.1 h
      obtain ⟨y, -, rfl⟩ := List.mem_map.1 hx
      exact ⟨by positivity, by simp⟩) (by positivity)
  obtain ⟨k0, hu, -⟩ := hb best vb
  set a := c + effSize data datasize / K with ha
  set st : MixState (familySet (ngFam D) K) := ⟨⟨List.replicate K c, List.replicate K a⟩, fun _ => ⟨p0, best⟩⟩ with hst
  have hv : MixValid (familySet (ngFam D) K) (SetValid (NGValid D)) st := by
    refine ⟨⟨⟨by simp [st], ?_⟩, ⟨by simp [st], ?_⟩⟩, fun _ => ⟨h0, vb⟩⟩
    · intro x hx
      rw [(List.mem_replicate.1 hx).2]
      exact hc
    · intro x hx
      rw [(List.mem_replicate.1 hx).2]
      positivity
  have hd : ∀ x ∈ data.map List.ofFn, x.length = D := by
    intro x hx
    obtain ⟨y, -, rfl⟩ := List.mem_map.1 hx
    simp
  -- the full step does nothing
  have hfix : mixStep (familySet (ngFam D) K) st (data.map List.ofFn) datasize 1 = .ok st := by
    have hl : ∀ x : List ℝ, x.length = D → ∃ w, (familySet (ngFam D) K).llh st.comps x = .ok fun _ => w := by
      intro x hx
      exact ⟨vdot ((ngConj hD).T best) ((ngFam D).stats x) + (ngConj hD).base,
        seqFin_ok _ _ fun m => (ngConj hD).llh_eq (st.comps m) x vb hx⟩
    have hw : ∃ w, logWeights K st.weights.post = .ok fun _ => w := by
      obtain ⟨C, rfl⟩ : ∃ C, K = C + 1 := ⟨K - 1, by omega⟩
      refine ⟨digamma a - digamma (∑ _j : Fin (C + 1), a), ?_⟩
      rw [logWeights_eq _ hv.1.2.1]
      congr 1
      funext k
      unfold lwOf
      have e : st.weights.post = List.ofFn fun _ : Fin (C + 1) => a := (List.ofFn_const _ _).symm
      rw [e, catExpLlh_eq, Finset.sum_eq_single k]
      · simp
      · intro j _ hj
        simp [hj]
      · intro h
        exact absurd (Finset.mem_univ _) h
    obtain ⟨w, hw⟩ := hw
    have hout : ∀ x ∈ data.map List.ofFn, mixOut (familySet (ngFam D) K) st x =
        .ok (mixLocal (fun _ => w) (valueOf 0 ((familySet (ngFam D) K).llh st.comps x))) := by
      intro x hx
      obtain ⟨u, hu⟩ := hl x (hd x hx)
      unfold mixOut
      rw [hw, hu]
      rfl
    have hres : ∀ x ∈ data.map List.ofFn,
        (mixLocal (fun _ : Fin K => w) (valueOf 0 ((familySet (ngFam D) K).llh st.comps x))).resps = fun _ => 1 / (K : ℝ) := by
      intro x hx
      obtain ⟨u, hu⟩ := hl x (hd x hx)
      rw [hu, share_eq (by omega)]
      funext k
      unfold share
      simp only [valueOf_ok, Finset.sum_const, Finset.card_univ, Fintype.card_fin, nsmul_eq_mul]
      have := Real.exp_pos w
      have := Real.exp_pos u
      field_simp
    have hmap : ((data.map List.ofFn).map fun x => (mixLocal (fun _ : Fin K => w)
        (valueOf 0 ((familySet (ngFam D) K).llh st.comps x))).resps) = (data.map List.ofFn).map fun _ => fun _ => 1 / (K : ℝ) :=
      List.map_congr_left hres
    have hmap' : ((data.map List.ofFn).map fun x => (x, (mixLocal (fun _ : Fin K => w)
        (valueOf 0 ((familySet (ngFam D) K).llh st.comps x))).resps)) =
        (data.map List.ofFn).map fun x => (x, fun _ => 1 / (K : ℝ)) :=
      List.map_congr_left fun x hx => by rw [hres x hx]
    unfold mixStep
    rw [List.length_map, batchScale_eff data datasize hne, ok_bind, mapM_ok_map _ _ _ hout, ok_bind, zipWith_map_right,
      dir_refit (by omega) st.weights hv.1, ok_bind, hmap']
    have hs : (familySet (ngFam D) K).step st.comps ((data.map List.ofFn).map fun x => (x, fun _ => 1 / (K : ℝ)))
        (effSize data datasize / data.length) 1 = .ok st.comps := by
      refine seqFin_ok _ _ fun m => ?_
      rw [← hu]
      simp only [List.map_map, Function.comp_def]
      rfl
    rw [hs, ok_bind]
    congr 1
    have hwt : (List.ofFn fun k : Fin K => st.weights.prior.getD k 0 + ((((data.map List.ofFn).map fun x =>
        mixLocal (fun _ : Fin K => w) (valueOf 0 ((familySet (ngFam D) K).llh st.comps x))).map fun o => o.resps).map fun r =>
          effSize data datasize / data.length * r k).sum) = List.replicate K a := by
      rw [← List.ofFn_const]
      congr 1
      funext k
      rw [List.map_map (l := data.map List.ofFn)]
      have e : ((fun o : LocalOut K => o.resps) ∘ fun x => mixLocal (fun _ : Fin K => w)
          (valueOf 0 ((familySet (ngFam D) K).llh st.comps x))) = fun x => (mixLocal (fun _ : Fin K => w)
          (valueOf 0 ((familySet (ngFam D) K).llh st.comps x))).resps := rfl
      rw [e, hmap]
      simp only [List.map_map, Function.comp_def, List.map_const', st]
      rw [ha]
      simp [List.getD_eq_getElem?_getD]
      field_simp
    rw [hwt]
  refine ⟨best, vb, fun ls hl => ?_⟩
  obtain ⟨s1, g, g', e1, -, e2, e3, -, h⟩ := mix_stall hK _ _ _ (C87_normalset_diagonal hD K) (C172_normalset_diagonal hD K) st hv
    (data.map List.ofFn) hd (by simpa using hne) datasize 1 one_pos le_rfl
  obtain rfl := Except.ok.inj (e1.symm.trans hfix)
  obtain rfl := Except.ok.inj (e2.symm.trans e3)
  exact mixTrain_fixed _ _ _ _ (h le_rfl).2 ls hl

/-! ## Mixtures of one component -/

/-- **C172, boundary.** With a single component the weights do not enter the objective. -/
theorem C172_single_component_weights (inner : SetModel X 1) (c a b : ℝ) (s : inner.State) (data : List X) (datasize : ℤ) :
    mixElbo inner ⟨⟨[c], [a]⟩, s⟩ data datasize = mixElbo inner ⟨⟨[c], [b]⟩, s⟩ data datasize := by
  have hw : ∀ a : ℝ, logWeights 1 [a] = .ok fun _ => 0 := by
    intro a
    rw [logWeights_eq (C := 1) [a] rfl]
    congr 1
    funext k
    simp [lwOf, catExpLlh, catStats, dirExpStats, vdot]
  have hk : ∀ a c : ℝ, (dirFam 1).kl [a] [c] = .ok 0 := by
    intro a c
    have h : (dirFam 1).kl [a] [c] = .ok (dirLogNorm [c] - dirLogNorm [a] -
        vdot (dirExpStats [a]) (vsub (dirNatural [c]) (dirNatural [a]))) := by
      unfold Family.kl
      rw [if_neg (by simp [dirFam])]
      simp only [dirFam, ok_bind]
      rw [if_neg (by simp [dirNatural, dirExpStats])]
    rw [h]
    congr 1
    simp [dirLogNorm, dirExpStats, dirNatural, vsub, vdot]
  have ho : mixOut inner ⟨⟨[c], [a]⟩, s⟩ = mixOut inner ⟨⟨[c], [b]⟩, s⟩ := by
    funext x
    unfold mixOut
    rw [hw, hw]
  unfold mixElbo mixKl Family.paramKl
  rw [ho, hk, hk]

/-- **C172, boundary.** So a step of a mixture of one Normal model may change the parameters — the weights — and leave
`evidence_lower_bound` unchanged: on any data, the mixture whose Normal model has already converged and whose weights are those of
the prior. -/
theorem C172_single_component_moves (hD : 1 ≤ D) (data : List (Fin D → ℝ)) (hne : data ≠ []) (datasize : ℤ) (p0 : NG ℝ)
    (h0 : NGValid D p0) (c : ℝ) (hc : 0 < c) :
    ∃ best a, (ngFam D).update ⟨p0, best⟩ (normalAcc (ngFam D) (data.map List.ofFn) (effSize data datasize / data.length)) 1 =
        .ok ⟨p0, best⟩ ∧ a ≠ c ∧
      mixStep (familySet (ngFam D) 1) ⟨⟨[c], [c]⟩, fun _ => ⟨p0, best⟩⟩ (data.map List.ofFn) datasize 1 =
        .ok ⟨⟨[c], [a]⟩, fun _ => ⟨p0, best⟩⟩ ∧
      mixElbo (familySet (ngFam D) 1) ⟨⟨[c], [a]⟩, fun _ => ⟨p0, best⟩⟩ (data.map List.ofFn) datasize =
        mixElbo (familySet (ngFam D) 1) ⟨⟨[c], [c]⟩, fun _ => ⟨p0, best⟩⟩ (data.map List.ofFn) datasize := by
  have hn := effSize_pos data datasize hne
  have hlen : (0 : ℝ) < data.length := by exact_mod_cast List.length_pos_of_ne_nil hne
  obtain ⟨best, a0, a1, vb, -, -, -, hb⟩ := (ngConj hD).oneStepOptimal p0 ((data.map List.ofFn).map fun x => ((1 : ℝ), x))
    (effSize data datasize / data.length) h0 (by
      intro r h
      obtain ⟨x, hx, rfl⟩ := List.mem_map.1 h
      obtain ⟨y, -, rfl⟩ := List.mem_map.1 hx
      exact ⟨zero_le_one, by simp⟩) (by positivity)
  obtain ⟨k0, hu, -⟩ := hb best vb
  have hu' : (ngFam D).update ⟨p0, best⟩
      (normalAcc (ngFam D) (data.map List.ofFn) (effSize data datasize / data.length)) 1 = .ok ⟨p0, best⟩ := by
    rw [← hu]
    unfold normalAcc
    simp only [List.map_map, Function.comp_def]
  set st : MixState (familySet (ngFam D) 1) := ⟨⟨[c], [c]⟩, fun _ => ⟨p0, best⟩⟩ with hst
  have hv : MixValid (familySet (ngFam D) 1) (SetValid (NGValid D)) st := by
    refine ⟨⟨⟨rfl, ?_⟩, ⟨rfl, ?_⟩⟩, fun _ => ⟨h0, vb⟩⟩ <;> simpa [st] using hc
  obtain ⟨st', e, e2⟩ := mix_single (emb := List.ofFn) (ngConj hD) (fun x => by simp) st hv data hne datasize 1 one_pos le_rfl
  have hcomp : st'.comps = fun _ => ⟨p0, best⟩ := by
    funext k
    rw [Fin.fin_one_eq_zero k]
    exact (Except.ok.inj (hu'.symm.trans e2)).symm
  have hw : st'.weights = ⟨[c], [c + effSize data datasize]⟩ := by
    have hone : ∀ (lw v : Fin 1 → ℝ), (mixLocal lw v).resps = fun _ => 1 := by
      intro lw v
      funext k
      have := (C44_responsibilities Nat.one_pos lw v).1.2
      rw [Fin.sum_univ_one] at this
      rwa [Fin.fin_one_eq_zero k]
    have hin := familySet_lawful (ngConj hD) 1
    choose v hv1 using fun x : Fin D → ℝ => hin.llh_ok st.comps (List.ofFn x) hv.2 (by simp)
    have hout : ∀ x ∈ data.map List.ofFn, mixOut (familySet (ngFam D) 1) st x =
        .ok (mixLocal (lwOf 1 st.weights.post) (valueOf 0 ((familySet (ngFam D) 1).llh st.comps x))) := by
      intro x hx
      obtain ⟨y, hy, rfl⟩ := List.mem_map.1 hx
      unfold mixOut
      rw [logWeights_eq _ hv.1.2.1, hv1]
      rfl
    unfold mixStep at e
    rw [List.length_map, batchScale_eff data datasize hne, ok_bind, mapM_ok_map _ _ _ hout, ok_bind, zipWith_map_right,
      dir_refit le_rfl st.weights hv.1, ok_bind] at e
    rcases hd : (familySet (ngFam D) 1).step st.comps ((data.map List.ofFn).map fun x => (x, (mixLocal (lwOf 1 st.weights.post)
        (valueOf 0 ((familySet (ngFam D) 1).llh st.comps x))).resps)) (effSize data datasize / data.length) 1 with er | w
    · rw [hd] at e
      exact absurd e (by rintro ⟨⟩)
    · rw [hd] at e
      have := Except.ok.inj e
      rw [← this]
      simp only [hone, List.map_map, Function.comp_def]
      have : (effSize data datasize / data.length) * data.length = effSize data datasize := div_mul_cancel₀ _ hlen.ne'
      simp only [mul_one, List.map_const', List.sum_replicate, nsmul_eq_mul, List.ofFn_succ, List.ofFn_zero, st]
      rw [mul_comm] at this
      simp [this]
  refine ⟨best, c + effSize data datasize, hu', by linarith, ?_, C172_single_component_weights _ _ _ _ _ _ _⟩
  rw [e, ← hw, ← hcomp]

/-- Two equal components at their priors, and the data 1 and 3: any step increases the objective. -/
example (l : ℝ) (h0 : 0 < l) (h1 : l ≤ 1) : ∃ st' g g',
    mixStep (familySet (ngFam 1) 2) twins (twoData.map List.ofFn) (-1) l = .ok st' ∧
      mixElbo (familySet (ngFam 1) 2) twins (twoData.map List.ofFn) (-1) = .ok g ∧
      mixElbo (familySet (ngFam 1) 2) st' (twoData.map List.ofFn) (-1) = .ok g' ∧ g < g' :=
  C172_first_step le_rfl le_rfl twins twins_valid (fun _ => rfl) twoData (by simp [twoData]) (-1) l h0 h1

/-- A fixed point on the same data: two copies of the Normal model trained on half of the data. -/
example : ∃ best, NGValid 1 best ∧ ∀ ls, (∀ l ∈ ls, 0 < l ∧ l ≤ 1) →
    mixTrain (familySet (ngFam 1) 2) (twoData.map List.ofFn) (-1) ⟨⟨[1, 1], [2, 2]⟩, fun _ => ⟨unitNG.prior, best⟩⟩ ls =
      .ok ⟨⟨[1, 1], [2, 2]⟩, fun _ => ⟨unitNG.prior, best⟩⟩ := by
  obtain ⟨best, h, h'⟩ := C172_identical_components le_rfl le_rfl twoData (by simp [twoData]) (-1) unitNG.prior unitNG_valid.1 1
    one_pos
  refine ⟨best, h, ?_⟩
  have e : (1 : ℝ) + effSize twoData (-1) / (2 : ℕ) = 2 := by
    simp [effSize, twoData]
    norm_num
  rw [e] at h'
  exact h'

/-- The states of the left-to-right HMM at their priors, trained twice on two frames: either nothing changes or the objective
grows. -/
example : ∃ st', hmmTrain demoGraph (familySet (ngFam 1) 2) 1 [embUtt List.ofFn twoFrames] 1 (fun _ => unitNG) [1, 1 / 2] =
      .ok st' ∧ (st' ≠ (fun _ => unitNG) →
        hmmObjective demoGraph (familySet (ngFam 1) 2) 1 [embUtt List.ofFn twoFrames] 1 (fun _ => unitNG) <
        hmmObjective demoGraph (familySet (ngFam 1) 2) 1 [embUtt List.ofFn twoFrames] 1 st') := by
  have hf : Feasible demoGraph twoFrames := by
    have := demo_weight fun _ _ => 0
    exact this.trans_le (Finset.single_le_sum (f := pathWeight demoGraph (asLog fun _ _ => 0))
      (fun p _ => pathWeight_nonneg _ _ p) (Finset.mem_univ ![0, 1]))
  obtain ⟨st', e, h, -⟩ := C172_hmm demoGraph (familySet (ngFam 1) 2) _ _ (C87_normalset_diagonal le_rfl 2)
    (C172_normalset_diagonal le_rfl 2) 1 zero_le_one [embUtt List.ofFn twoFrames] (by
      intro u hu
      rw [List.mem_singleton.1 hu]
      exact ⟨fun t => by simp [embUtt], hf⟩) 1 zero_le_one [1, 1 / 2] (by
      intro l hl
      simp only [List.mem_cons, List.not_mem_nil, or_false] at hl
      rcases hl with rfl | rfl <;> norm_num) (by simp) (fun _ => unitNG) (fun _ => unitNG_valid)
  exact ⟨st', e, h⟩

end Verif.Props
