import Verif.Props.VBTrain
import Verif.Props.LoopVB
import Verif.Lemmas.RescaleRun
import Verif.Lemmas.RescaleUnits

/-!
# Properties of trainings under a change of units and under a renumbering (C167-C168)
-/

namespace Verif.Props

open Real Matrix Verif.Dists Verif.DistSpec Verif.VB Verif.Mixture Verif.PhoneLoop

variable {X P : Type}

/-! ## C167: new units for the features -/

/-- C167: a set of Normal models with diagonal covariance matrices, and new units for every coordinate: the scores move by
the same constant, the divergences stay, and a training step gives the same models in the new units. -/
theorem C167_diagonal_units {D : ℕ} (hD : 1 ≤ D) (a b : Fin D → ℝ) (ha : ∀ i, a i ≠ 0) (M : ℕ) :
    Corresponds (familySet (ngFam D) M) (familySet (ngFam D) M) (SetValid (NGValid D)) (SetValid (NGValid D))
      (fun x => x.length = D) (unitsX a b) (fun st m => (st m).tr (unitsNG a b)) (-∑ i, log |a i|) 1 :=
  familySet_corresponds (ngConj hD) (ng_corresponds hD a b ha) 1

/-- From metres to millimetres with another origin, and from radians to degrees. -/
example : (∀ i : Fin 2, (![1000, 180 / π] : Fin 2 → ℝ) i ≠ 0) ∧
    unitsX ![1000, 180 / π] ![-7, 0] [1, π] = [993, 180] ∧
    unitsNG ![1000, 180 / π] ![-7, 0] ⟨[1, π], 1, 2, [3, π ^ 2]⟩ = ⟨[993, 180], 1, 2, [3000000, 32400]⟩ := by
  have hp := pi_ne_zero
  have h1 : (180 : ℝ) / π * π + 0 = 180 := by field_simp; norm_num
  have h2 : ((180 : ℝ) / π) ^ 2 * π ^ 2 = 32400 := by field_simp; norm_num
  refine ⟨fun i => ?_, ?_, ?_⟩
  · fin_cases i
    · simp
    · simp [hp]
  · have : unitsX ![1000, 180 / π] ![-7, 0] [1, π] = [1000 * 1 + -7, 180 / π * π + 0] := rfl
    rw [this, h1]
    norm_num
  · have : unitsNG ![1000, 180 / π] ![-7, 0] ⟨[1, π], 1, 2, [3, π ^ 2]⟩ =
      ⟨[1000 * 1 + -7, 180 / π * π + 0], 1, 2, [1000 ^ 2 * 3, (180 / π) ^ 2 * π ^ 2]⟩ := rfl
    rw [this, h1, h2]
    norm_num

/-- C167: isotropic covariance matrices, and a rotation (or reflection) with a gain and a shift. -/
theorem C167_isotropic_similarity {D : ℕ} (hD : 1 ≤ D) (A : Matrix (Fin D) (Fin D) ℝ) (b : Fin D → ℝ) (g : ℝ) (hg : 0 < g)
    (hA : Aᵀ * A = g • (1 : Matrix (Fin D) (Fin D) ℝ)) (M : ℕ) :
    Corresponds (familySet (ingFam D) M) (familySet (ingFam D) M) (SetValid (INGValid D)) (SetValid (INGValid D))
      (fun x => x.length = D) (affX A b) (fun st m => (st m).tr (affING A b g)) (-((D : ℝ) / 2 * log g)) 1 :=
  familySet_corresponds (ingConj hD) (ing_corresponds hD A b g hg hA) 1

/-- A quarter of a turn with gain two. -/
example : (!![0, -2; 2, 0] : Matrix (Fin 2) (Fin 2) ℝ)ᵀ * !![0, -2; 2, 0] = (4 : ℝ) • 1 := by
  ext i j
  fin_cases i <;> fin_cases j <;> simp [Matrix.mul_apply, Fin.sum_univ_two] <;> norm_num

/-- C167: full covariance matrices, and any invertible affine map. -/
theorem C167_full_affine {D : ℕ} (A : Matrix (Fin D) (Fin D) ℝ) (b : Fin D → ℝ) (hA : A.det ≠ 0) (M : ℕ) :
    Corresponds (familySet (nwFam D) M) (familySet (nwFam D) M) (SetValid (NWValidD D)) (SetValid (NWValidD D))
      (fun _ => True) (fun x => A *ᵥ x + b) (fun st m => (st m).tr (affNWD A b)) (-log |A.det|) 1 :=
  familySet_corresponds nwConj (nw_corresponds A b hA) 1

example : (!![1, 5; 0, 3] : Matrix (Fin 2) (Fin 2) ℝ).det ≠ 0 := by simp [Matrix.det_fin_two]

/-- C167: sets of mixtures of such models (the emissions of the HMMs). -/
theorem C167_mixture_sets {M C : ℕ} (hC : 1 ≤ C) (S : SetModel X (M * C)) (V : S.State → Prop) (XV : X → Prop)
    (hl : Lawful S V XV) (f : X → X) (F : S.State → S.State) (c : ℝ) (h : Corresponds S S V V XV f F c 1) :
    Corresponds (mixtureSet M C S) (mixtureSet M C S) (MixSetValid S V) (MixSetValid S V) XV f
      (fun st => (st.1, F st.2)) c 1 := by
  refine (mixtureSet_corresponds hC 1 (fun _ => 1) 1 (fun _ _ => rfl) hl h).congr (mixtureSet_lawful hC S V XV hl)
    fun st hv => Prod.ext (funext fun m => ?_) rfl
  obtain ⟨h1, h2⟩ := hv.1 m
  show CParam.mk (permW 1 (st.1 m).prior) (permW 1 (st.1 m).post) = st.1 m
  rw [permW_one _ h1.1, permW_one _ h2.1]

/-- C167: shared emissions and emissions of several sets correspond as well. -/
theorem C167_shared_and_joint {M N S : ℕ} (A : SetModel X M) (B : SetModel X N) (V : A.State → Prop) (W : B.State → Prop)
    (XV : X → Prop) (la : Lawful A V XV) (lb : Lawful B W XV) (f : X → X) (F : A.State → A.State)
    (G : B.State → B.State) (c : ℝ) (ha : Corresponds A A V V XV f F c 1) (hb : Corresponds B B W W XV f G c 1)
    (order : Fin S → Fin M) :
    Corresponds (orderedSet order A) (orderedSet order A) V V XV f F c 1 ∧
    Corresponds (jointSet A B) (jointSet A B) (fun st => V st.1 ∧ W st.2) (fun st => V st.1 ∧ W st.2) XV f
      (fun st => (F st.1, G st.2)) c 1 := by
  refine ⟨orderedSet_corresponds la ha order order 1 fun _ => rfl, ?_⟩
  have := jointSet_corresponds la lb ha hb
  have e : finSumFinEquiv.permCongr (Equiv.Perm.sumCongr (1 : Equiv.Perm (Fin M)) (1 : Equiv.Perm (Fin N))) = 1 := by
    rw [Equiv.Perm.sumCongr_one]
    ext i
    simp [Equiv.permCongr_apply]
  rwa [e] at this

/-- C167: mixtures.  Training on the changed features, from the translated parameters, gives the translation of what
training on the original features gives; the weights are the same; the responsibilities are the same; the score of each
point moves by the constant, the objective by the constant times the size of the data set. -/
theorem C167_mixture_training {K : ℕ} (hK : 1 ≤ K) (S : SetModel X K) (V : S.State → Prop) (XV : X → Prop)
    (hl : Lawful S V XV) (f : X → X) (F : S.State → S.State) (c : ℝ) (h : Corresponds S S V V XV f F c 1)
    (data : List X) (hd : ∀ x ∈ data, XV x) (hne : data ≠ []) (datasize : ℤ) (ls : List ℝ) (hr : ∀ l ∈ ls, 0 < l ∧ l ≤ 1)
    (st : MixState S) (hw : ParamValid (DirValid K) st.weights) (hv : V st.comps) :
    ∃ st', mixTrain S data datasize st ls = .ok st' ∧
      mixTrain S (data.map f) datasize ⟨st.weights, F st.comps⟩ ls = .ok ⟨st'.weights, F st'.comps⟩ ∧
      (∀ x, XV x → ∃ o, mixOut S st' x = .ok o ∧
        mixOut S ⟨st'.weights, F st'.comps⟩ (f x) = .ok ⟨o.resps, o.value + c⟩) ∧
      ∃ e, mixElbo S st' data datasize = .ok e ∧
        mixElbo S ⟨st'.weights, F st'.comps⟩ (data.map f) datasize =
          .ok (e + (if datasize ≤ 0 then (data.length : ℤ) else datasize : ℤ) * c) := by
  have htr : ∀ s : MixState S, MixValid S V s → MixState.tr F 1 s = (⟨s.weights, F s.comps⟩ : MixState S) := by
    intro s hs
    show MixState.mk (CParam.mk (permW 1 s.weights.prior) (permW 1 s.weights.post)) (F s.comps) = _
    rw [permW_one _ hs.1.1.1, permW_one _ hs.1.2.1]
  have hv' : MixValid S V st := ⟨hw, hv⟩
  obtain ⟨st', e1, v1, e2⟩ := mixTrain_corr hK hl h data hd hne datasize ls st hv' hr
  rw [htr st hv', htr st' v1] at e2
  refine ⟨st', e1, e2, fun x hx => ?_, ?_⟩
  · obtain ⟨o, o1, -, o2⟩ := mixOut_corr hK hl h st' v1 x hx
    rw [htr st' v1] at o2
    exact ⟨o, o1, o2⟩
  · obtain ⟨g, g1, g2⟩ := mixElbo_corr hK hl h st' v1 data hd hne datasize
    rw [htr st' v1] at g2
    exact ⟨g, g1, g2⟩

/-- A mixture of two Normal models in one dimension, trained on degrees Celsius and on degrees Fahrenheit. -/
example : ∃ st', mixTrain (familySet (ngFam 1) 2) [[20], [37], [-3]] 3
      ⟨⟨[1, 1], [1, 1]⟩, fun m => if m = 0 then ⟨⟨[0], 1, 1, [1]⟩, ⟨[10], 1, 1, [1]⟩⟩ else
        ⟨⟨[0], 1, 1, [1]⟩, ⟨[-10], 1, 1, [1]⟩⟩⟩ [1, 1 / 2] = .ok st' ∧
    mixTrain (familySet (ngFam 1) 2) ([[20], [37], [-3]].map (unitsX ![9 / 5] ![32])) 3
      ⟨⟨[1, 1], [1, 1]⟩, fun m => (if m = 0 then ⟨⟨[0], 1, 1, [1]⟩, ⟨[10], 1, 1, [1]⟩⟩ else
        ⟨⟨[0], 1, 1, [1]⟩, ⟨[-10], 1, 1, [1]⟩⟩ : CParam (NG ℝ)).tr (unitsNG ![9 / 5] ![32])⟩ [1, 1 / 2] =
      .ok ⟨st'.weights, fun m => (st'.comps m).tr (unitsNG ![9 / 5] ![32])⟩ := by
  obtain ⟨st', h1, h2, -⟩ := C167_mixture_training (by norm_num) _ _ _ (C87_normalset_diagonal (D := 1) le_rfl 2) _ _ _
    (C167_diagonal_units le_rfl ![9 / 5] ![32] (by intro i; fin_cases i; simp) 2) [[20], [37], [-3]]
    (by intro x hx; simp at hx; rcases hx with rfl | rfl | rfl <;> rfl) (by simp) 3 [1, 1 / 2]
    (by intro l hl; simp at hl; rcases hl with rfl | rfl <;> norm_num)
    ⟨⟨[1, 1], [1, 1]⟩, fun m => if m = 0 then ⟨⟨[0], 1, 1, [1]⟩, ⟨[10], 1, 1, [1]⟩⟩ else
        ⟨⟨[0], 1, 1, [1]⟩, ⟨[-10], 1, 1, [1]⟩⟩⟩ ⟨⟨rfl, by simp⟩, ⟨rfl, by simp⟩⟩
    (by
      intro m
      dsimp only
      split_ifs <;> exact ⟨⟨rfl, rfl, by norm_num, by norm_num, by simp⟩, ⟨rfl, rfl, by norm_num, by norm_num, by simp⟩⟩)
  exact ⟨st', h1, h2⟩

/-- C167: HMMs.  A training that succeeds on the original features gives the translated parameters on the changed ones;
the state posteriors and the best path of every utterance are the same; the objective moves by the constant times the
acoustic scale and the size of the data set. -/
theorem C167_hmm_training {K : ℕ} (hK : 0 < K) (g : CGraph K) (S : SetModel X K) (V : S.State → Prop) (XV : X → Prop)
    (hl : Lawful S V XV) (f : X → X) (F : S.State → S.State) (c : ℝ) (h : Corresponds S S V V XV f F c 1)
    (a : ℝ) (ha : 0 ≤ a) (utts : List (VB.Utt X)) (hu : ∀ u ∈ utts, ∀ t, XV (u.2 t)) (scale : ℝ) (hs : 0 ≤ scale)
    (ls : List ℝ) (hr : ∀ l ∈ ls, 0 < l ∧ l ≤ 1) (st st' : S.State) (hv : V st)
    (ht : hmmTrain g S a utts scale st ls = .ok st') :
    hmmTrain g S a (utts.map fun u => u.tr f) scale (F st) ls = .ok (F st') ∧
    ∀ u : VB.Utt X, (∀ t, XV (u.2 t)) →
      (∃ v, hmmLlhs S st' a u = .ok v ∧ hmmLlhs S (F st') a (u.tr f) = .ok (fun t s => v t s + a * c) ∧
        (∀ t s, statePosts g (asLog fun t s => v t s + a * c) t s = statePosts g (asLog v) t s) ∧
        ∀ am, ShiftInvariant am → ∀ t, bestPath am g (asLog fun t s => v t s + a * c) t = bestPath am g (asLog v) t) ∧
      ∀ datasize e, hmmElbo g S st' a u datasize = .ok e →
        hmmElbo g S (F st') a (u.tr f) datasize =
          .ok (e + (if datasize ≤ 0 then ((u.1 + 1 : ℕ) : ℤ) else datasize : ℤ) * (a * c)) := by
  obtain ⟨v', e2⟩ := hmmTrain_corr hl h g a ha utts hu scale hs ls st st' hv hr ht
  refine ⟨e2, fun u hu => ⟨?_, fun datasize e he => hmmElbo_corr hl h hK g st' v' a u hu datasize e he⟩⟩
  obtain ⟨v, h1, h2⟩ := hmmLlhs_corr hl h st' v' a u hu
  have hsh := asLog_shift (1 : Equiv.Perm (Fin K)) v (a * c)
  refine ⟨v, h1, h2, fun t s => ?_, fun am ham t => ?_⟩
  · have := statePosts_shift (1 : Equiv.Perm (Fin K)) g (asLog v) (fun _ => a * c) t s
    rw [← hsh] at this
    exact this
  · have := bestPath_shift g (asLog v) (fun _ => a * c) am ham t
    rw [← hsh] at this
    exact this

/-- The index of a largest score, as chosen by any rule that looks at the set of these indices. -/
example {K : ℕ} (pick : Set (Fin K) → Fin K) : ShiftInvariant fun w : Frame K => pick {i | ∀ j, w j ≤ w i} := by
  intro w k
  refine congrArg pick (Set.ext fun i => forall_congr' fun j => ?_)
  constructor
  · intro h
    exact (WithBot.add_le_add_iff_right (by simp)).1 h
  · intro h
    exact add_le_add_left h _

/-- Two states with Normal emissions: the training of C88 in two units. -/
example : ∃ st', hmmTrain coinGraph (familySet (ngFam 1) 2) (1 / 2) [⟨2, fun t => [(t : ℝ)]⟩] 10
      (fun _ => ⟨⟨[0], 1, 1, [1]⟩, ⟨[0], 1, 1, [1]⟩⟩) [1, 1 / 4] = .ok st' ∧
    hmmTrain coinGraph (familySet (ngFam 1) 2) (1 / 2) [⟨2, fun t => unitsX ![-3] ![7] [(t : ℝ)]⟩] 10
      (fun _ => ⟨unitsNG ![-3] ![7] ⟨[0], 1, 1, [1]⟩, unitsNG ![-3] ![7] ⟨[0], 1, 1, [1]⟩⟩) [1, 1 / 4] =
      .ok fun m => (st' m).tr (unitsNG ![-3] ![7]) := by
  have hls : ∀ l ∈ [(1 : ℝ), 1 / 4], 0 < l ∧ l ≤ 1 := by
    intro l hl; simp at hl; rcases hl with rfl | rfl <;> norm_num
  have hst : SetValid (NGValid 1) (fun _ : Fin 2 => (⟨⟨[0], 1, 1, [1]⟩, ⟨[0], 1, 1, [1]⟩⟩ : CParam (NG ℝ))) :=
    fun _ => ⟨⟨rfl, rfl, by norm_num, by norm_num, by simp⟩, ⟨rfl, rfl, by norm_num, by norm_num, by simp⟩⟩
  obtain ⟨st', h1, -, -⟩ := C88_hmm_training coinGraph _ _ _ (C87_normalset_diagonal (D := 1) le_rfl 2) (1 / 2)
    (by norm_num) [⟨2, fun t => [(t : ℝ)]⟩] (fun u hu => by
      simp at hu; subst hu; exact ⟨fun _ => rfl, coin_feasible _⟩) 10 (by norm_num) [1, 1 / 4] hls _ hst
  refine ⟨st', h1, ?_⟩
  exact (C167_hmm_training (by norm_num) coinGraph _ _ _ (C87_normalset_diagonal (D := 1) le_rfl 2) _ _ _
    (C167_diagonal_units le_rfl ![-3] ![7] (by intro i; fin_cases i; simp) 2) (1 / 2) (by norm_num) _
    (fun u hu => by simp at hu; subst hu; exact fun _ => rfl) 10 (by norm_num) [1, 1 / 4] hls _ st' hst h1).1

/-- C167: phone loops, with or without alignments: the transitions and the weights of the units learned are the same, the
emissions are translated. -/
theorem C167_loop_training {M S Q : ℕ} (conf : LoopConf M S Q) (A : SetModel X M) (V : A.State → Prop) (XV : X → Prop)
    (hl : Lawful A V XV) (f : X → X) (F : A.State → A.State) (c : ℝ) (h : Corresponds A A V V XV f F c 1)
    (a : ℝ) (ha : 0 ≤ a) (utts : List (LUtt X M)) (hu : ∀ u ∈ utts, ∀ t, XV (u.frames.2 t)) (scale : ℝ) (hs : 0 ≤ scale)
    (ls : List ℝ) (hr : ∀ l ∈ ls, 0 < l ∧ l ≤ 1) (st st' : LoopState A S) (hv : V st.comps)
    (ht : loopTrain conf A a utts scale st ls = .ok st') :
    loopTrain conf A a (utts.map fun u => ⟨u.frames.tr f, u.ali⟩) scale ⟨st.trans, st.weights, F st.comps⟩ ls =
      .ok ⟨st'.trans, st'.weights, F st'.comps⟩ := by
  have e2 := (loopTrain_corr hl h conf a ha utts hu scale hs ls st st' hv hr ht).2
  have hc : conf.tr 1 = conf := rfl
  have hm : (fun u : LUtt X M => u.tr f 1) = fun u => ⟨u.frames.tr f, u.ali⟩ := by
    funext u
    obtain ⟨fr, ali⟩ := u
    cases ali <;> rfl
  rw [hc, hm] at e2
  exact e2

/-- An utterance without alignment and one with an alignment. -/
noncomputable def duoNormalUtts : List (LUtt (List ℝ) 4) :=
  [⟨⟨1, fun t => [(t : ℝ)]⟩, none⟩, ⟨⟨1, fun t => [(t : ℝ)]⟩, some ⟨2, coinGraph, ![0, 3]⟩⟩]

/-- Normal emissions for the loop of C157. -/
noncomputable def duoNormals : (familySet (ngFam 1) 4).State := fun _ => ⟨⟨[0], 1, 1, [1]⟩, ⟨[0], 1, 1, [1]⟩⟩

example : ∃ st', loopTrain duoConf (familySet (ngFam 1) 4) 1 duoNormalUtts 10 ⟨duoState.trans, duoState.weights, duoNormals⟩
      [1, 1 / 2] = .ok st' ∧
    loopTrain duoConf (familySet (ngFam 1) 4) 1
      (duoNormalUtts.map fun u => ⟨u.frames.tr (unitsX ![-3] ![7]), u.ali⟩) 10
      ⟨duoState.trans, duoState.weights, fun m => (duoNormals m).tr (unitsNG ![-3] ![7])⟩ [1, 1 / 2] =
      .ok ⟨st'.trans, st'.weights, fun m => (st'.comps m).tr (unitsNG ![-3] ![7])⟩ := by
  have hls : ∀ l ∈ [(1 : ℝ), 1 / 2], 0 < l ∧ l ≤ 1 := by
    intro l hl; simp at hl; rcases hl with rfl | rfl <;> norm_num
  have hst : SetValid (NGValid 1) duoNormals :=
    fun _ => ⟨⟨rfl, rfl, by norm_num [duoNormals], by norm_num [duoNormals], by simp [duoNormals]⟩,
      ⟨rfl, rfl, by norm_num [duoNormals], by norm_num [duoNormals], by simp [duoNormals]⟩⟩
  have hL := C87_normalset_diagonal (D := 1) le_rfl 4
  have hd : ∀ u ∈ duoNormalUtts, ∀ t, (u.frames.2 t).length = 1 := by
    intro u hu
    simp only [duoNormalUtts, List.mem_cons, List.not_mem_nil, or_false] at hu
    rcases hu with rfl | rfl <;> exact fun t => rfl
  obtain ⟨st', h1, -, -⟩ := C157_runs duoConf (by norm_num) duo_units (familySet (ngFam 1) 4) _ _ hL duoTrans 1 zero_le_one
    duoNormalUtts 10 (by norm_num) [1, 1 / 2] hls ⟨duoState.trans, duoState.weights, duoNormals⟩
    ⟨duo_valid.weights, hst, make_eq duoConf (familySet (ngFam 1) 4) duoTrans duoState.weights _ duo_valid.weights.2⟩ (by
      intro u hu
      refine ⟨hd u hu, ?_⟩
      simp only [duoNormalUtts, List.mem_cons, List.not_mem_nil, or_false] at hu
      rcases hu with rfl | rfl
      · exact duo_feasible
      · exact coin_feasible _)
  exact ⟨st', h1, C167_loop_training duoConf _ _ _ hL _ _ _
    (C167_diagonal_units le_rfl ![-3] ![7] (by intro i; fin_cases i; simp) 4) 1 zero_le_one duoNormalUtts hd 10 (by norm_num)
    [1, 1 / 2] hls ⟨duoState.trans, duoState.weights, duoNormals⟩ st' hst h1⟩

/-- C167: the mean and the variance of a data set in the new units. -/
theorem C167_dataset_stats {D : ℕ} (a b : Fin D → ℝ) (utts : List (Features.Utt D)) (mean var : Fin D → ℝ) (n : ℕ)
    (h : Features.datasetStats utts = .ok (mean, var, n)) :
    Features.datasetStats (utts.map fun u => u.map fun x => a * x + b) =
      .ok (a * mean + b, fun i => a i ^ 2 * var i, n) := Features.datasetStats_units a b utts mean var n h

example : Features.datasetStats [[![1], ![3]], [![8]]] = .ok (![4], ![26 / 3], 3) := by
  unfold Features.datasetStats
  rw [if_neg (by simp)]
  simp only [Features.foldl_add_eq]
  rw [if_neg (by simp)]
  congr 1
  refine Prod.ext ?_ (Prod.ext ?_ ?_)
  · funext i; fin_cases i; simp; norm_num
  · funext i; fin_cases i; simp; norm_num
  · simp

/-- C167: models created from the statistics in the new units, with the same random numbers, are the models created from the
original ones in the new units (gains positive; the noise of the initial means follows the standard deviations). -/
theorem C167_created_diagonal {D M : ℕ} (a b mean var : Fin D → ℝ) (ha : ∀ i, 0 < a i) (strength noise : ℝ)
    (randn : Fin M → Fin D → ℝ) :
    ∃ p : Fin M → CParam (NG ℝ), normalSetDiag mean (.vec var) strength noise randn = .ok p ∧
      normalSetDiag (a * mean + b) (.vec fun i => a i ^ 2 * var i) strength noise randn =
        .ok fun m => (p m).tr (unitsNG a b) := by
  refine ⟨_, rfl, ?_⟩
  unfold normalSetDiag
  show Except.ok _ = _
  congr 1
  funext m
  simp only [CParam.tr, unitsNG_ofFn, Matrix.diagonal_apply_eq]
  have h1 : (List.ofFn fun i => strength * (a i ^ 2 * var i)) = List.ofFn fun i => a i ^ 2 * (strength * var i) := by
    congr 1; funext i; ring
  have h2 : (a * mean + b + setNoise randn noise (fun i => a i ^ 2 * var i) m) =
      fun i => a i * (mean + setNoise randn noise var m) i + b i := by
    funext i
    simp only [Pi.add_apply, Pi.mul_apply, setNoise_units a ha]
    ring
  rw [h1, h2]
  rfl

/-- C167: full covariance matrices created from variances. -/
theorem C167_created_full {D M : ℕ} (a b mean var : Fin D → ℝ) (ha : ∀ i, 0 < a i) (hv : ∀ i, 0 < var i)
    (strength noise : ℝ) (randn : Fin M → Fin D → ℝ) :
    ∃ p : Fin M → CParam (Σ D : ℕ, NW D), normalSetFull mean (.vec var) strength noise randn = .ok p ∧
      normalSetFull (a * mean + b) (.vec fun i => a i ^ 2 * var i) strength noise randn =
        .ok fun m => (p m).tr (affNWD (Matrix.diagonal a) b) := by
  have hdet : ∀ w : Fin D → ℝ, (∀ i, 0 < w i) → (Matrix.diagonal w).det ≠ 0 := by
    intro w hw
    rw [Matrix.det_diagonal]
    exact Finset.prod_ne_zero_iff.2 fun i _ => (hw i).ne'
  have hinv : ∀ w : Fin D → ℝ, (∀ i, 0 < w i) → (Matrix.diagonal w)⁻¹ = Matrix.diagonal fun i => (w i)⁻¹ := by
    intro w hw
    refine Matrix.inv_eq_right_inv ?_
    rw [Matrix.diagonal_mul_diagonal, ← Matrix.diagonal_one]
    congr 1
    funext i
    exact mul_inv_cancel₀ (hw i).ne'
  have hv' : ∀ i, 0 < a i ^ 2 * var i := fun i => mul_pos (pow_pos (ha i) 2) (hv i)
  refine ⟨fun m => ⟨⟨D, ⟨mean, strength, (1 / (strength + D - 1)) • (Matrix.diagonal var)⁻¹, strength + D - 1⟩⟩,
    ⟨D, ⟨mean + setNoise randn noise var m, strength, (1 / (strength + D - 1)) • (Matrix.diagonal var)⁻¹,
      strength + D - 1⟩⟩⟩, ?_, ?_⟩
  · unfold normalSetFull fullCov covDiag covInverse tinverse
    simp only [ok_bind, Matrix.diagonal_apply_eq]
    rw [if_neg (hdet var hv)]
    rfl
  · unfold normalSetFull fullCov covDiag covInverse tinverse
    simp only [ok_bind, Matrix.diagonal_apply_eq]
    rw [if_neg (hdet _ hv')]
    show Except.ok _ = _
    congr 1
    funext m
    simp only [CParam.tr, affNWD_eq]
    have h1 : (Matrix.diagonal a)⁻¹ᵀ * ((1 / (strength + D - 1)) • (Matrix.diagonal var)⁻¹) * (Matrix.diagonal a)⁻¹ =
        (1 / (strength + D - 1)) • (Matrix.diagonal fun i => a i ^ 2 * var i)⁻¹ := by
      rw [hinv _ hv', hinv _ hv, hinv _ ha, Matrix.diagonal_transpose, Matrix.mul_smul, Matrix.smul_mul,
        Matrix.diagonal_mul_diagonal, Matrix.diagonal_mul_diagonal]
      congr 2
      funext i
      rw [mul_inv]
      ring
    have h2 : (a * mean + b + setNoise randn noise (fun i => a i ^ 2 * var i) m) =
        Matrix.diagonal a *ᵥ (mean + setNoise randn noise var m) + b := by
      funext i
      simp only [Pi.add_apply, Pi.mul_apply, setNoise_units a ha, Matrix.mulVec_diagonal]
      ring
    have h3 : a * mean + b = Matrix.diagonal a *ᵥ mean + b := by
      funext i
      simp only [Pi.add_apply, Pi.mul_apply, Matrix.mulVec_diagonal]
    rw [h2, h3]
    unfold affNW
    rw [h1]

/-- C167: isotropic covariance matrices, one gain for all the coordinates. -/
theorem C167_created_isotropic {D M : ℕ} (hD : 1 ≤ D) (r : ℝ) (hr : 0 < r) (b mean var : Fin D → ℝ)
    (strength noise : ℝ) (randn : Fin M → Fin D → ℝ) :
    ∃ p : Fin M → CParam (ING ℝ), normalSetIso mean (.vec var) strength noise randn = .ok p ∧
      normalSetIso (r • mean + b) (.vec fun i => r ^ 2 * var i) strength noise randn =
        .ok fun m => (p m).tr (affING (r • (1 : Matrix (Fin D) (Fin D) ℝ)) b (r ^ 2)) := by
  have hmax : ∀ (l : List ℝ) (x : ℝ), (l.map (r ^ 2 * ·)).foldl max (r ^ 2 * x) = r ^ 2 * l.foldl max x := by
    intro l
    induction l with
    | nil => intro x; rfl
    | cons y l ih =>
      intro x
      simp only [List.map_cons, List.foldl_cons]
      rw [← mul_max_of_nonneg _ _ (sq_nonneg r), ih]
  obtain ⟨D, rfl⟩ : ∃ n, D = n + 1 := ⟨D - 1, by omega⟩
  have e1 : ∀ w : Fin (D + 1) → ℝ, vecMax w = .ok ((List.ofFn fun i : Fin D => w i.succ).foldl max (w 0)) := by
    intro w
    unfold vecMax
    rw [List.ofFn_succ]
  refine ⟨fun m => ⟨⟨List.ofFn mean, strength, strength, strength * (List.ofFn fun i : Fin D => var i.succ).foldl max (var 0)⟩,
    ⟨List.ofFn (mean + setNoise randn noise var m), strength, strength,
      strength * (List.ofFn fun i : Fin D => var i.succ).foldl max (var 0)⟩⟩, ?_, ?_⟩
  · unfold normalSetIso fullCov covDiag
    simp only [ok_bind, Matrix.diagonal_apply_eq, e1]
  · unfold normalSetIso fullCov covDiag
    simp only [ok_bind, Matrix.diagonal_apply_eq, e1]
    congr 1
    funext m
    have h1 : (List.ofFn fun i : Fin D => r ^ 2 * var i.succ).foldl max (r ^ 2 * var 0) =
        r ^ 2 * (List.ofFn fun i : Fin D => var i.succ).foldl max (var 0) := by
      rw [← hmax, List.map_ofFn]
      rfl
    have h2 : (r • mean + b + setNoise randn noise (fun i => r ^ 2 * var i) m) =
        (r • (1 : Matrix (Fin (D + 1)) (Fin (D + 1)) ℝ)) *ᵥ (mean + setNoise randn noise var m) + b := by
      funext i
      rw [Matrix.smul_mulVec, Matrix.one_mulVec]
      simp only [Pi.add_apply, Pi.smul_apply, smul_eq_mul, setNoise_units (fun _ => r) (fun _ => hr)]
      ring
    have h3 : r • mean + b = (r • (1 : Matrix (Fin (D + 1)) (Fin (D + 1)) ℝ)) *ᵥ mean + b := by
      rw [Matrix.smul_mulVec, Matrix.one_mulVec]
    simp only [CParam.tr, affING, affX_ofFn]
    rw [h1, h2, h3]
    congr 2 <;> ring

/-- C167: from the features to the trained mixture (statistics, creation, training), diagonal covariance matrices. -/
theorem C167_pipeline {D K : ℕ} (hD : 1 ≤ D) (hK : 1 ≤ K) (a b : Fin D → ℝ) (ha : ∀ i, 0 < a i)
    (utts : List (Features.Utt D)) (mean var : Fin D → ℝ) (n : ℕ) (h : Features.datasetStats utts = .ok (mean, var, n))
    (hv : ∀ i, 0 < var i) (strength noise wstrength : ℝ) (hs : 0 < strength) (hw : 0 < wstrength)
    (randn : Fin K → Fin D → ℝ) (datasize : ℤ) (ls : List ℝ) (hr : ∀ l ∈ ls, 0 < l ∧ l ≤ 1) :
    ∃ p st', normalSetDiag mean (.vec var) strength noise randn = .ok p ∧
      mixTrain (familySet (ngFam D) K) (utts.flatten.map List.ofFn) datasize (mixCreate _ p wstrength) ls = .ok st' ∧
      ∃ mean' var' p', Features.datasetStats (utts.map fun u => u.map fun x => a * x + b) = .ok (mean', var', n) ∧
        normalSetDiag mean' (.vec var') strength noise randn = .ok p' ∧
        mixTrain (familySet (ngFam D) K) ((utts.map fun u => u.map fun x => a * x + b).flatten.map List.ofFn) datasize
          (mixCreate _ p' wstrength) ls = .ok ⟨st'.weights, fun m => (st'.comps m).tr (unitsNG a b)⟩ := by
  obtain ⟨p, h1, h2⟩ := C167_created_diagonal (M := K) a b mean var ha strength noise randn
  have hne : utts.flatten ≠ [] := by
    intro h0
    unfold Features.datasetStats at h
    by_cases hu : utts = []
    · rw [if_pos hu] at h; cases h
    rw [if_neg hu, Features.foldl_add_eq, h0] at h
    simp at h
  have hp : SetValid (NGValid D) p := by
    intro m
    have : p = _ := (Except.ok.inj h1).symm
    rw [this]
    have hpos : ∀ x ∈ List.ofFn fun i => strength * (Matrix.diagonal var) i i, 0 < x := by
      intro x hx
      obtain ⟨i, rfl⟩ := List.mem_ofFn.1 hx
      rw [Matrix.diagonal_apply_eq]
      exact mul_pos hs (hv i)
    exact ⟨⟨by simp, by simp, hs, hs, hpos⟩, ⟨by simp, by simp, hs, hs, hpos⟩⟩
  have hK' : (0 : ℝ) < K := by exact_mod_cast hK
  have hwv : ParamValid (DirValid K) (mixCreate (familySet (ngFam D) K) p wstrength).weights := by
    have : DirValid K ((List.replicate K (1 / (K : ℝ))).map (· * wstrength)) := by
      refine ⟨by simp, fun x hx => ?_⟩
      rw [List.map_replicate] at hx
      rw [List.eq_of_mem_replicate hx]
      positivity
    exact ⟨this, this⟩
  obtain ⟨st', t1, t2, -⟩ := C167_mixture_training hK _ _ _ (C87_normalset_diagonal hD K) _ _ _
    (C167_diagonal_units hD a b (fun i => (ha i).ne') K) (utts.flatten.map List.ofFn)
    (by intro x hx; obtain ⟨y, -, rfl⟩ := List.mem_map.1 hx; simp) (by simpa using hne) datasize ls hr
    (mixCreate _ p wstrength) hwv hp
  refine ⟨p, st', h1, t1, _, _, _, C167_dataset_stats a b utts mean var n h, h2, ?_⟩
  have hdat : (utts.map fun u => u.map fun x => a * x + b).flatten.map List.ofFn =
      (utts.flatten.map List.ofFn).map (unitsX a b) := by
    rw [← List.map_flatten, List.map_map, List.map_map]
    refine List.map_congr_left fun x _ => ?_
    show List.ofFn (a * x + b) = unitsX a b (List.ofFn x)
    unfold unitsX
    simp only [getD_ofFn']
    rfl
  rw [hdat]
  exact t2

/-- The data set of the example above, in other units. -/
example : ∃ mean var : Fin 1 → ℝ, ∃ n, Features.datasetStats [[![1], ![3]], [![8]]] = .ok (mean, var, n) ∧ ∀ i, 0 < var i := by
  refine ⟨![4], ![26 / 3], 3, ?_, fun i => by fin_cases i; norm_num⟩
  unfold Features.datasetStats
  rw [if_neg (by simp)]
  simp only [Features.foldl_add_eq]
  rw [if_neg (by simp)]
  congr 1
  refine Prod.ext ?_ (Prod.ext ?_ ?_)
  · funext i; fin_cases i; simp; norm_num
  · funext i; fin_cases i; simp; norm_num
  · simp

/-! ## C168: renumbering -/

/-- C168: the models of a set in another order. -/
theorem C168_sets {fam : Family X P} {V : P → Prop} {XV : X → Prop} (C : Conj fam V XV) {M : ℕ}
    (σ : Equiv.Perm (Fin M)) :
    Corresponds (familySet fam M) (familySet fam M) (SetValid V) (SetValid V) XV id (fun st m => st (σ m)) 0 σ :=
  familySet_corresponds C param_id σ

/-- C168: the mixtures of a set in another order, and the components of each mixture in another order (also the component
that is last: the code treats the last weight apart). -/
theorem C168_mixture_sets {fam : Family X P} {V : P → Prop} {XV : X → Prop} (C : Conj fam V XV) {M N : ℕ} (hN : 1 ≤ N)
    (τ : Equiv.Perm (Fin M)) (ρ : Fin M → Equiv.Perm (Fin N)) (θ : Equiv.Perm (Fin (M * N)))
    (hθ : ∀ m k, θ (flatIdx m k) = flatIdx (τ m) (ρ m k)) :
    Corresponds (mixtureSet M N (familySet fam (M * N))) (mixtureSet M N (familySet fam (M * N)))
      (MixSetValid _ (SetValid V)) (MixSetValid _ (SetValid V)) XV id
      (fun st => (fun m => ⟨permW (ρ m) (st.1 (τ m)).prior, permW (ρ m) (st.1 (τ m)).post⟩, fun i => st.2 (θ i))) 0 τ :=
  mixtureSet_corresponds hN τ ρ θ hθ (familySet_lawful C (M * N)) (C168_sets C θ)

/-- Every choice of the orders is possible. -/
example {M N : ℕ} (τ : Equiv.Perm (Fin M)) (ρ : Fin M → Equiv.Perm (Fin N)) :
    ∃ θ : Equiv.Perm (Fin (M * N)), ∀ m k, θ (flatIdx m k) = flatIdx (τ m) (ρ m k) := by
  have hf : ∀ (m : Fin M) (k : Fin N), flatIdx m k = finProdFinEquiv (m, k) := by
    intro m k
    refine Fin.ext ?_
    show (m : ℕ) * N + k = (finProdFinEquiv (m, k) : Fin (M * N)).1
    rw [finProdFinEquiv_apply_val, Nat.mul_comm, Nat.add_comm]
  let e : Equiv.Perm (Fin M × Fin N) := (Equiv.prodShear τ ρ : Fin M × Fin N ≃ Fin M × Fin N)
  refine ⟨finProdFinEquiv.permCongr e, fun m k => ?_⟩
  rw [hf, hf, Equiv.permCongr_apply, Equiv.symm_apply_apply]
  rfl

/-- C168: mixtures: training the mixture with its components in another order gives the same components in that order, the
same objective and the responsibilities in that order. -/
theorem C168_mixture_training {fam : Family X P} {V : P → Prop} {XV : X → Prop} (C : Conj fam V XV) {K : ℕ} (hK : 1 ≤ K)
    (σ : Equiv.Perm (Fin K)) (data : List X) (hd : ∀ x ∈ data, XV x) (hne : data ≠ []) (datasize : ℤ) (ls : List ℝ)
    (hr : ∀ l ∈ ls, 0 < l ∧ l ≤ 1) (st : MixState (familySet fam K)) (hw : ParamValid (DirValid K) st.weights)
    (hv : SetValid V st.comps) :
    ∃ st', mixTrain (familySet fam K) data datasize st ls = .ok st' ∧
      mixTrain (familySet fam K) data datasize ⟨⟨permW σ st.weights.prior, permW σ st.weights.post⟩, fun m => st.comps (σ m)⟩
        ls = .ok ⟨⟨permW σ st'.weights.prior, permW σ st'.weights.post⟩, fun m => st'.comps (σ m)⟩ ∧
      (∀ x, XV x → ∃ o, mixOut (familySet fam K) st' x = .ok o ∧
        mixOut (familySet fam K) ⟨⟨permW σ st'.weights.prior, permW σ st'.weights.post⟩, fun m => st'.comps (σ m)⟩ x =
          .ok ⟨fun k => o.resps (σ k), o.value⟩) ∧
      mixElbo (familySet fam K) ⟨⟨permW σ st'.weights.prior, permW σ st'.weights.post⟩, fun m => st'.comps (σ m)⟩ data
        datasize = mixElbo (familySet fam K) st' data datasize := by
  have hl := familySet_lawful C K
  have h := C168_sets C σ
  obtain ⟨st', e1, v1, e2⟩ := mixTrain_corr hK hl h data hd hne datasize ls st ⟨hw, hv⟩ hr
  rw [List.map_id] at e2
  refine ⟨st', e1, e2, fun x hx => ?_, ?_⟩
  · obtain ⟨o, o1, -, o2⟩ := mixOut_corr hK hl h st' v1 x hx
    rw [add_zero] at o2
    exact ⟨o, o1, o2⟩
  · obtain ⟨g, g1, g2⟩ := mixElbo_corr hK hl h st' v1 data hd hne datasize
    rw [List.map_id, mul_zero, add_zero] at g2
    rw [g1]
    exact g2

/-- Exchanging the first component and the last one, in the mixture trained above. -/
example : permW (Equiv.swap (0 : Fin 3) 2) [5, 1, 2] = [2, 1, 5] ∧
    ∃ st', mixTrain (familySet (dirFam 2) 2) [[1, 0], [0, 1], [2, 5]] 100 demoMix [1, 1 / 2, 1 / 10] = .ok st' ∧
    mixTrain (familySet (dirFam 2) 2) [[1, 0], [0, 1], [2, 5]] 100
      ⟨⟨permW (Equiv.swap (0 : Fin 2) 1) demoMix.weights.prior, permW (Equiv.swap (0 : Fin 2) 1) demoMix.weights.post⟩,
        fun m => demoMix.comps (Equiv.swap (0 : Fin 2) 1 m)⟩ [1, 1 / 2, 1 / 10] =
      .ok ⟨⟨permW (Equiv.swap (0 : Fin 2) 1) st'.weights.prior, permW (Equiv.swap (0 : Fin 2) 1) st'.weights.post⟩,
        fun m => st'.comps (Equiv.swap (0 : Fin 2) 1 m)⟩ := by
  refine ⟨by simp [permW, List.ofFn_succ, Equiv.swap_apply_def], ?_⟩
  obtain ⟨st', h1, h2, -⟩ := C168_mixture_training (dirConj (D := 2) (by norm_num)) (K := 2) (by norm_num) (Equiv.swap 0 1)
    [[1, 0], [0, 1], [2, 5]] (by
      intro x hx
      simp at hx
      rcases hx with rfl | rfl | rfl <;> refine ⟨rfl, ?_⟩ <;> simp) (by simp) 100 [1, 1 / 2, 1 / 10] (by
      intro l hl
      simp at hl
      rcases hl with rfl | rfl | rfl <;> norm_num) demoMix (by
        constructor <;> refine ⟨rfl, ?_⟩ <;> simp [demoMix]) (by
      intro m
      constructor
      · refine ⟨rfl, ?_⟩; simp [demoMix]
      · unfold demoMix
        dsimp only
        split_ifs <;> refine ⟨rfl, ?_⟩ <;> simp)
  exact ⟨st', h1, h2⟩

/-- C168: HMMs: the states of the graph in another order, with their emissions. -/
theorem C168_hmm_training {K : ℕ} (hK : 0 < K) (g : CGraph K) {S S' : SetModel X K} {V : S.State → Prop}
    {V' : S'.State → Prop} {XV : X → Prop} (hl : Lawful S V XV) (F : S.State → S'.State) (σ : Equiv.Perm (Fin K))
    (h : Corresponds S S' V V' XV id F 0 σ) (a : ℝ) (ha : 0 ≤ a) (utts : List (VB.Utt X))
    (hu : ∀ u ∈ utts, ∀ t, XV (u.2 t)) (scale : ℝ) (hs : 0 ≤ scale) (ls : List ℝ) (hr : ∀ l ∈ ls, 0 < l ∧ l ≤ 1)
    (st st' : S.State) (hv : V st) (ht : hmmTrain g S a utts scale st ls = .ok st') :
    hmmTrain (permGraph σ g) S' a utts scale (F st) ls = .ok (F st') ∧
    ∀ u : VB.Utt X, (∀ t, XV (u.2 t)) → ∀ datasize e, hmmElbo g S st' a u datasize = .ok e →
      hmmElbo (permGraph σ g) S' (F st') a u datasize = .ok e := by
  obtain ⟨v', e2⟩ := hmmTrain_corr hl h g a ha utts hu scale hs ls st st' hv hr ht
  have hid : (fun u : VB.Utt X => u.tr id) = id := rfl
  rw [hid, List.map_id] at e2
  refine ⟨e2, fun u hu datasize e he => ?_⟩
  have := hmmElbo_corr hl h hK g st' v' a u hu datasize e he
  rw [mul_zero, mul_zero, add_zero] at this
  exact this

/-- C168: states that share models of a set: any numbering of the states and any numbering of the models. -/
theorem C168_shared {M S : ℕ} {A A' : SetModel X M} {V : A.State → Prop} {V' : A'.State → Prop} {XV : X → Prop}
    (hl : Lawful A V XV) (F : A.State → A'.State) (τ : Equiv.Perm (Fin M)) (h : Corresponds A A' V V' XV id F 0 τ)
    (order : Fin S → Fin M) (σ : Equiv.Perm (Fin S)) :
    Corresponds (orderedSet order A) (orderedSet (fun s => τ.symm (order (σ s))) A') V V' XV id F 0 σ :=
  orderedSet_corresponds hl h order _ σ fun s => by simp

/-- C168: phone loops: the pdfs in another order, with the numbers of the pdfs changed in the graphs. -/
theorem C168_loop_training {M S Q : ℕ} (conf : LoopConf M S Q) {A A' : SetModel X M} {V : A.State → Prop}
    {V' : A'.State → Prop} {XV : X → Prop} (hl : Lawful A V XV) (F : A.State → A'.State) (τ : Equiv.Perm (Fin M))
    (h : Corresponds A A' V V' XV id F 0 τ) (a : ℝ) (ha : 0 ≤ a) (utts : List (LUtt X M))
    (hu : ∀ u ∈ utts, ∀ t, XV (u.frames.2 t)) (scale : ℝ) (hs : 0 ≤ scale) (ls : List ℝ) (hr : ∀ l ∈ ls, 0 < l ∧ l ≤ 1)
    (st st' : LoopState A S) (hv : V st.comps) (ht : loopTrain conf A a utts scale st ls = .ok st') :
    loopTrain (conf.tr τ) A' a (utts.map fun u => u.tr id τ) scale (st.tr F) ls = .ok (st'.tr F) :=
  (loopTrain_corr hl h conf a ha utts hu scale hs ls st st' hv hr ht).2

/-- C168: phone loops: the units in another order.  The transitions and the emissions learned are the same, the weights
are the same in the new order. -/
theorem C168_loop_units {M S Q : ℕ} (conf : LoopConf M S Q) (hQ : 1 ≤ Q) (hU : LoopUnits conf) (ρ : Equiv.Perm (Fin Q))
    (A : SetModel X M) (V : A.State → Prop) (XV : X → Prop) (hl : Lawful A V XV) (T : TMat S) (a : ℝ) (ha : 0 ≤ a)
    (utts : List (LUtt X M)) (scale : ℝ) (hs : 0 ≤ scale) (ls : List ℝ) (hr : ∀ l ∈ ls, 0 < l ∧ l ≤ 1)
    (st : LoopState A S) (hst : LoopValid conf V T st)
    (hu : ∀ u ∈ utts, (∀ t, XV (u.frames.2 t)) ∧ LoopFeasible conf st.trans u) :
    ∃ st', loopTrain conf A a utts scale st ls = .ok st' ∧
      loopTrain { conf with starts := fun j => conf.starts (ρ j) } A a utts scale
        ⟨st.trans, ⟨permW ρ st.weights.prior, permW ρ st.weights.post⟩, st.comps⟩ ls =
        .ok ⟨st'.trans, ⟨permW ρ st'.weights.prior, permW ρ st'.weights.post⟩, st'.comps⟩ :=
  unitsPerm_train conf ρ hl hQ hU T a ha utts scale hs ls st hst hr hu

/-- The loop of C157 with its two units exchanged. -/
example : ∃ st', loopTrain duoConf (familySet (dirFam 2) 4) 1 [duoUtt] 10 duoState [1, 1 / 2] = .ok st' ∧
    loopTrain { duoConf with starts := fun j => duoConf.starts (Equiv.swap 0 1 j) } (familySet (dirFam 2) 4) 1 [duoUtt] 10
      ⟨duoState.trans, ⟨permW (Equiv.swap (0 : Fin 2) 1) duoState.weights.prior,
        permW (Equiv.swap (0 : Fin 2) 1) duoState.weights.post⟩, duoState.comps⟩ [1, 1 / 2] =
      .ok ⟨st'.trans, ⟨permW (Equiv.swap (0 : Fin 2) 1) st'.weights.prior,
        permW (Equiv.swap (0 : Fin 2) 1) st'.weights.post⟩, st'.comps⟩ :=
  C168_loop_units duoConf (by norm_num) duo_units (Equiv.swap 0 1) _ _ _ (C87_categoricalset (D := 2) (by norm_num) 4) duoTrans
    1 zero_le_one [duoUtt] 10 (by norm_num) [1, 1 / 2]
    (by intro l hl; simp at hl; rcases hl with rfl | rfl <;> norm_num) duoState duo_valid (by
      intro u hu
      rw [List.mem_singleton] at hu
      subst hu
      exact ⟨fun t => ⟨rfl, by simp [duoUtt]⟩, duo_feasible⟩)

/-- The HMM of C88 with its two states exchanged. -/
example : ∃ st', hmmTrain coinGraph (familySet (dirFam 2) 2) (1 / 2) [coinUtt] 10 coinState [1, 1 / 2] = .ok st' ∧
    hmmTrain (permGraph (Equiv.swap 0 1) coinGraph) (familySet (dirFam 2) 2) (1 / 2) [coinUtt] 10
      (fun m => coinState (Equiv.swap (0 : Fin 2) 1 m)) [1, 1 / 2] = .ok fun m => st' (Equiv.swap (0 : Fin 2) 1 m) := by
  have hls : ∀ l ∈ [(1 : ℝ), 1 / 2], 0 < l ∧ l ≤ 1 := by
    intro l hl; simp at hl; rcases hl with rfl | rfl <;> norm_num
  have hu : ∀ u ∈ [coinUtt], ∀ t, CountsValid 2 (u.2 t) := by
    intro u hu t; rw [List.mem_singleton] at hu; subst hu; exact coinUtt_valid t
  obtain ⟨st', h1, -, -⟩ := C88_hmm_training coinGraph _ _ _ (C87_categoricalset (by norm_num) 2) (1 / 2) (by norm_num)
    [coinUtt] (fun u h => ⟨hu u h, coin_feasible _⟩) 10 (by norm_num) [1, 1 / 2] hls coinState coin_valid
  exact ⟨st', h1, (C168_hmm_training (by norm_num) coinGraph (C87_categoricalset (by norm_num) 2) _ _
    (C168_sets (dirConj (D := 2) (by norm_num)) (Equiv.swap 0 1)) (1 / 2) (by norm_num) [coinUtt] hu 10 (by norm_num) _ hls
    coinState st' coin_valid h1).1⟩

/-- The loop of C157 with its pdfs in the reverse order. -/
example : ∃ st', loopTrain duoConf (familySet (dirFam 2) 4) 1 [duoUtt, ⟨duoUtt.frames, some ⟨2, coinGraph, ![0, 3]⟩⟩] 10
      duoState [1, 1 / 2] = .ok st' ∧
    loopTrain (duoConf.tr Fin.revPerm) (familySet (dirFam 2) 4) 1
      ([duoUtt, ⟨duoUtt.frames, some ⟨2, coinGraph, ![0, 3]⟩⟩].map fun u => u.tr id Fin.revPerm) 10
      (duoState.tr fun (c : Fin 4 → CParam (List ℝ)) m => c m.rev) [1, 1 / 2] = .ok (st'.tr fun (c : Fin 4 → CParam (List ℝ)) m => c m.rev) := by
  have hls : ∀ l ∈ [(1 : ℝ), 1 / 2], 0 < l ∧ l ≤ 1 := by
    intro l hl; simp at hl; rcases hl with rfl | rfl <;> norm_num
  have hL := C87_categoricalset (D := 2) (by norm_num) 4
  obtain ⟨st', h1, -, -⟩ := C157_runs duoConf (by norm_num) duo_units _ _ _ hL duoTrans 1 zero_le_one
    [duoUtt, ⟨duoUtt.frames, some ⟨2, coinGraph, ![0, 3]⟩⟩] 10 (by norm_num) [1, 1 / 2] hls duoState duo_valid (by
      intro u hu
      simp only [List.mem_cons, List.not_mem_nil, or_false] at hu
      rcases hu with rfl | rfl
      · exact ⟨fun t => ⟨rfl, by simp [duoUtt]⟩, duo_feasible⟩
      · exact ⟨fun t => ⟨rfl, by simp [duoUtt]⟩, coin_feasible _⟩)
  refine ⟨st', h1, ?_⟩
  exact C168_loop_training duoConf hL _ Fin.revPerm (C168_sets (dirConj (D := 2) (by norm_num)) Fin.revPerm) 1 zero_le_one _
    (by
      intro u hu
      simp only [List.mem_cons, List.not_mem_nil, or_false] at hu
      rcases hu with rfl | rfl <;> exact fun t => ⟨rfl, by simp [duoUtt]⟩) 10 (by norm_num) _ hls duoState st'
    duo_valid.comps h1

end Verif.Props
