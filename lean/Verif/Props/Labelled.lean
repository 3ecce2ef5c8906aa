import Verif.Lemmas.Labelled
import Verif.Props.VBTrain

/-!
# C150: training a mixture with labels
-/

namespace Verif.Props

open Real Verif.Dists Verif.DistSpec Verif.VB Verif.Mixture

variable {X : Type}

/-- C150, what is reported for labelled data: the expected log-likelihoods of the classes of the labels, scaled, minus the
divergence of the parameters. The weights of the mixture have a part in the divergence only. -/
theorem C150_reported {K : ℕ} (hK : 1 ≤ K) (inner : SetModel X K) (V : inner.State → Prop) (XV : X → Prop)
    (hin : Lawful inner V XV) (st : MixState inner) (hw : ParamValid (DirValid K) st.weights) (hc : V st.comps)
    (pairs : List (X × Fin K)) (hne : pairs ≠ []) (hd : ∀ p ∈ pairs, XV p.1) (labels : List ℤ)
    (hl : Labels pairs labels) (datasize : ℤ) :
    ∃ kc kw, inner.kl st.comps = .ok kc ∧ (dirFam K).kl st.weights.post st.weights.prior = .ok kw ∧
      labElbo inner st (pairs.map Prod.fst) labels datasize =
        .ok (batchFactor pairs.length datasize * (pairs.map fun p => valueOf 0 (inner.llh st.comps p.1) p.2).sum -
          (kc + kw)) := by
  obtain ⟨kc, e, _⟩ := hin.kl_ok st.comps hc
  refine ⟨kc, _, e, (dirConj hK).paramKl_eq _ hw, ?_⟩
  rw [lab_elbo hK inner V XV hin st ⟨hw, hc⟩ pairs hne hd labels hl datasize, e]
  rfl

/-- C150, what a step does: the concentration of a class moves, by the learning rate, to its prior concentration plus the
scaled number of its labels; the components are updated with the frames of their labels only. -/
theorem C150_step {K : ℕ} (hK : 1 ≤ K) (inner : SetModel X K) (V : inner.State → Prop) (XV : X → Prop)
    (hin : Lawful inner V XV) (st : MixState inner) (hw : ParamValid (DirValid K) st.weights) (hc : V st.comps)
    (pairs : List (X × Fin K)) (hne : pairs ≠ []) (hd : ∀ p ∈ pairs, XV p.1) (labels : List ℤ)
    (hl : Labels pairs labels) (datasize : ℤ) (l : ℝ) (h0 : 0 < l) (h1 : l ≤ 1) :
    ∃ st', labStep inner st (pairs.map Prod.fst) labels datasize l = .ok st' ∧
      st'.weights.prior = st.weights.prior ∧
      (∀ k : Fin K, st'.weights.post.getD k 0 = (1 - l) * st.weights.post.getD k 0 +
        l * (st.weights.prior.getD k 0 + batchFactor pairs.length datasize * classCount pairs k)) ∧
      inner.step st.comps (pairs.map fun p => (p.1, fun k => if k = p.2 then 1 else 0))
        (batchFactor pairs.length datasize) l = .ok st'.comps := by
  obtain ⟨s', w, e, _, e1, e2, _⟩ := lab_step hK inner V XV hin st ⟨hw, hc⟩ pairs hne hd labels hl datasize l h0 h1
  refine ⟨_, e, rfl, fun k => ?_, e1⟩
  show w.getD k 0 = _
  rw [e2, List.getD_eq_getElem _ _ (by rw [List.length_ofFn]; exact k.2), List.getElem_ofFn]

/-- C150, partial: training with labels, with any learning rates in `(0, 1]`, raises no exception, keeps the parameters
valid, and never decreases the reported value **plus the expected log-weights of the labels**, which the code leaves out.
Without them the value can decrease (`C150_decreases`). -/
theorem C150_training_partial {K : ℕ} (hK : 1 ≤ K) (inner : SetModel X K) (V : inner.State → Prop)
    (XV : X → Prop) (hin : Lawful inner V XV) (pairs : List (X × Fin K)) (hne : pairs ≠ [])
    (hd : ∀ p ∈ pairs, XV p.1) (labels : List ℤ) (hl : Labels pairs labels) (datasize : ℤ) (ls : List ℝ)
    (hls : ∀ l ∈ ls, 0 < l ∧ l ≤ 1) (st : MixState inner) (hw : ParamValid (DirValid K) st.weights)
    (hc : V st.comps) :
    ∃ st' g g', labTrain inner (pairs.map Prod.fst) labels datasize st ls = .ok st' ∧
      ParamValid (DirValid K) st'.weights ∧ V st'.comps ∧
      labElbo inner st (pairs.map Prod.fst) labels datasize = .ok g ∧
      labElbo inner st' (pairs.map Prod.fst) labels datasize = .ok g' ∧
      g + batchFactor pairs.length datasize * (pairs.map fun p => expLogWeight st.weights.post p.2).sum ≤
        g' + batchFactor pairs.length datasize * (pairs.map fun p => expLogWeight st'.weights.post p.2).sum := by
  induction ls generalizing st with
  | nil =>
    exact ⟨st, _, _, rfl, hw, hc, lab_elbo hK inner V XV hin st ⟨hw, hc⟩ pairs hne hd labels hl datasize,
      lab_elbo hK inner V XV hin st ⟨hw, hc⟩ pairs hne hd labels hl datasize, le_rfl⟩
  | cons l ls ih =>
    obtain ⟨h0, h1⟩ := hls l (by simp)
    obtain ⟨s1, w, e, v, _, _, i1, i2⟩ :=
      lab_step hK inner V XV hin st ⟨hw, hc⟩ pairs hne hd labels hl datasize l h0 h1
    obtain ⟨st', g, g', e', hw', hc', eg, eg', hle⟩ := ih (fun l h => hls l (by simp [h])) _ v.1 v.2
    refine ⟨st', _, g', ?_, hw', hc', lab_elbo hK inner V XV hin st ⟨hw, hc⟩ pairs hne hd labels hl datasize, eg', ?_⟩
    · rw [labTrain, e]
      exact e'
    · rw [lab_elbo hK inner V XV hin _ v pairs hne hd labels hl datasize] at eg
      refine le_trans ?_ hle
      rw [← Except.ok.inj eg]
      rw [sum_map_sub', mul_sub] at i1 i2
      dsimp only
      linarith

/-- C150, violation: once the components have converged, a step from the prior weights makes the reported value strictly
smaller, whatever the labels: the divergence of the weights is charged and what they gain is not counted. -/
theorem C150_decreases {K : ℕ} (hK : 2 ≤ K) (inner : SetModel X K) (V : inner.State → Prop)
    (XV : X → Prop) (hin : Lawful inner V XV) (pairs : List (X × Fin K)) (hne : pairs ≠ [])
    (hd : ∀ p ∈ pairs, XV p.1) (labels : List ℤ) (hl : Labels pairs labels) (datasize : ℤ) (l : ℝ) (h0 : 0 < l)
    (h1 : l ≤ 1) (st : MixState inner) (hw : ParamValid (DirValid K) st.weights) (hc : V st.comps)
    (hpp : st.weights.post = st.weights.prior)
    (hfix : inner.step st.comps (pairs.map fun p => (p.1, fun k => if k = p.2 then 1 else 0))
      (batchFactor pairs.length datasize) l = .ok st.comps) :
    ∃ st' g g', labStep inner st (pairs.map Prod.fst) labels datasize l = .ok st' ∧
      labElbo inner st (pairs.map Prod.fst) labels datasize = .ok g ∧
      labElbo inner st' (pairs.map Prod.fst) labels datasize = .ok g' ∧ g' < g := by
  have hK1 : 1 ≤ K := by omega
  obtain ⟨s1, w, e, v, es, ew, _, _⟩ :=
    lab_step hK1 inner V XV hin st ⟨hw, hc⟩ pairs hne hd labels hl datasize l h0 h1
  have hs1 : s1 = st.comps := by
    have : inner.step st.comps _ _ l = .ok s1 := es
    rw [show (pairs.map fun p => (p.1, indicator p.2)) = pairs.map fun p => (p.1, fun k => if k = p.2 then 1 else 0)
      from rfl, hfix] at this
    exact (Except.ok.inj this).symm
  subst hs1
  refine ⟨_, _, _, e, lab_elbo hK1 inner V XV hin st ⟨hw, hc⟩ pairs hne hd labels hl datasize,
    lab_elbo hK1 inner V XV hin _ v pairs hne hd labels hl datasize, ?_⟩
  have hself : (dirConj hK1).D st.weights.prior st.weights.prior = 0 := by
    unfold Conj.D
    rw [vdot_vsub _ _ _ rfl]
    ring
  have hne' : w ≠ st.weights.prior := by
    intro hc'
    obtain ⟨p, hp⟩ := List.exists_mem_of_ne_nil pairs hne
    have hk := congrArg (fun c => c.getD p.2 0) (ew.symm.trans hc')
    rw [List.getD_eq_getElem _ _ (by rw [List.length_ofFn]; exact p.2.2), List.getElem_ofFn, hpp] at hk
    have hcount : 0 < classCount pairs p.2 := by
      unfold classCount
      rw [List.countP_pos_iff]
      exact ⟨p, hp, by simp⟩
    have hcount' : (0 : ℝ) < classCount pairs p.2 := by exact_mod_cast hcount
    have hb := (batchScale_factor (List.length_pos_iff.2 hne) datasize).2
    have : 0 < l * (batchFactor pairs.length datasize * classCount pairs p.2) := by positivity
    have hk' : (1 - l) * st.weights.prior.getD p.2 0 +
      l * (st.weights.prior.getD p.2 0 + batchFactor pairs.length datasize * classCount pairs p.2) =
      st.weights.prior.getD p.2 0 := hk
    nlinarith
  have hpos : 0 < (dirConj hK1).D w st.weights.prior := by
    refine lt_of_le_of_ne ((dirConj hK1).kl_nonneg _ _ v.1.2 hw.1) fun h => hne' ?_
    refine dir_kl_zero hK _ _ v.1.2 hw.1 ?_
    rw [(dirConj hK1).kl_eq _ _ v.1.2 hw.1, ← h]
  dsimp only
  rw [hpp, hself]
  linarith

/-- C150, error branches: an empty batch; a label that is no class; other numbers of labels than of frames. -/
theorem C150_errors {K : ℕ} (inner : SetModel X K) (V : inner.State → Prop) (XV : X → Prop)
    (hin : Lawful inner V XV) (st : MixState inner) (hw : ParamValid (DirValid K) st.weights) (hc : V st.comps)
    (data : List X) (hd : ∀ x ∈ data, XV x) (labels : List ℤ) (datasize : ℤ) (l : ℝ) :
    (data = [] → labElbo inner st data labels datasize = .error .zeroDivision ∧
      labStep inner st data labels datasize l = .error .zeroDivision) ∧
    (data ≠ [] → (∃ y ∈ labels, y < -K ∨ (K : ℤ) ≤ y) →
      labElbo inner st data labels datasize = .error .indexError ∧
      labStep inner st data labels datasize l = .error .indexError) ∧
    (data ≠ [] → (∀ y ∈ labels, -K ≤ y ∧ y < (K : ℤ)) → labels.length ≠ data.length →
      labElbo inner st data labels datasize = .error .runtimeError ∧
      labStep inner st data labels datasize l = .error .runtimeError) := by
  have hm : data.mapM (inner.llh st.comps) = .ok (data.map fun x => valueOf 0 (inner.llh st.comps x)) := by
    apply mapM_ok_map
    intro x hx
    obtain ⟨v, e⟩ := hin.llh_ok st.comps x hc (hd x hx)
    rw [e]
    rfl
  refine ⟨?_, ?_, ?_⟩
  · rintro rfl
    exact ⟨rfl, rfl⟩
  · rintro hne ⟨y, hy, h⟩
    have ho : labOuts inner st data labels = .error .indexError := by
      unfold labOuts
      rw [logWeights_eq _ hw.2.1, ok_bind, hm, ok_bind, labels_error labels ⟨y, hy, by
        unfold labelClass
        rw [dif_neg (by omega), dif_neg (by omega)]⟩]
      rfl
    have hb := (batchScale_factor (List.length_pos_iff.2 hne) datasize).1
    constructor
    · unfold labElbo
      rw [hb, ok_bind, ho]
      rfl
    · unfold labStep
      rw [hb, ok_bind, ho]
      rfl
  · intro hne hy hlen
    have hrows : ∃ rows, Utils.onehot labels K = .ok rows := by
      obtain ⟨ps, _, h⟩ := labels_exist (X := Unit) (K := K) (List.replicate labels.length ()) labels (by simp) (by
        intro y h
        obtain ⟨a, b⟩ := hy y h
        unfold labelClass
        by_cases h0 : 0 ≤ y
        · rw [dif_pos ⟨h0, b⟩]; simp
        · rw [dif_neg (by omega), dif_pos ⟨a, by omega⟩]; simp)
      obtain ⟨rows, e, _⟩ := labels_outs (fun _ _ => 0) ps labels h
      exact ⟨rows, e⟩
    obtain ⟨rows, hr⟩ := hrows
    have ho : labOuts inner st data labels = .error .runtimeError := by
      unfold labOuts
      rw [logWeights_eq _ hw.2.1, ok_bind, hm, ok_bind, hr, ok_bind, if_pos hlen]
    have hb := (batchScale_factor (List.length_pos_iff.2 hne) datasize).1
    constructor
    · unfold labElbo
      rw [hb, ok_bind, ho]
      rfl
    · unfold labStep
      rw [hb, ok_bind, ho]
      rfl

/-! ### Examples -/

/-- Two categorical components that have converged on one frame of the first class; weights at their prior. -/
noncomputable def labMix : MixState (familySet (dirFam 2) 2) :=
  ⟨⟨[1, 1], [1, 1]⟩, fun m => ⟨[1, 1], if m = 0 then [2, 1] else [1, 1]⟩⟩

theorem labMix_valid : ParamValid (DirValid 2) labMix.weights ∧ SetValid (DirValid 2) labMix.comps := by
  refine ⟨?_, fun m => ⟨?_, ?_⟩⟩
  · constructor <;> refine ⟨rfl, ?_⟩ <;> simp [labMix]
  · refine ⟨rfl, ?_⟩
    simp [labMix]
  · unfold labMix
    dsimp only
    split_ifs <;> refine ⟨rfl, ?_⟩ <;> simp

theorem labMix_fixed : (familySet (dirFam 2) 2).step labMix.comps
    ([(([1, 0] : List ℝ), (0 : Fin 2))].map fun p => (p.1, fun k => if k = p.2 then 1 else 0))
    (batchFactor 1 (-1)) 1 = .ok labMix.comps := by
  refine seqFin_ok _ _ fun m => ?_
  have hb : batchFactor 1 (-1) = 1 := by simp [batchFactor]
  rw [hb]
  fin_cases m <;>
    simp [labMix, Family.update, dirFam, dirNatural, dirFromNatural, catStats, wsum, vsmul, vadd, vsub,
      bind, Except.bind] <;> norm_num

theorem labMix_labels : Labels [(([1, 0] : List ℝ), (0 : Fin 2))] [-2] := by
  unfold Labels labelClass
  simp

example : ∃ st' g g', labStep (familySet (dirFam 2) 2) labMix [[1, 0]] [-2] (-1) 1 = .ok st' ∧
    labElbo (familySet (dirFam 2) 2) labMix [[1, 0]] [-2] (-1) = .ok g ∧
    labElbo (familySet (dirFam 2) 2) st' [[1, 0]] [-2] (-1) = .ok g' ∧ g' < g :=
  C150_decreases le_rfl _ _ _ (C87_categoricalset (by norm_num) 2) [([1, 0], 0)] (by simp)
    (by intro p hp; simp at hp; subst hp; refine ⟨rfl, ?_⟩; simp) _ labMix_labels (-1) 1 one_pos le_rfl labMix
    labMix_valid.1 labMix_valid.2 rfl labMix_fixed

example : ∃ st' g g', labTrain (familySet (dirFam 2) 2) [[1, 0]] [-2] 100 labMix [1, 1 / 2] = .ok st' ∧
      ParamValid (DirValid 2) st'.weights ∧ SetValid (DirValid 2) st'.comps ∧
      labElbo (familySet (dirFam 2) 2) labMix [[1, 0]] [-2] 100 = .ok g ∧
      labElbo (familySet (dirFam 2) 2) st' [[1, 0]] [-2] 100 = .ok g' ∧
      g + batchFactor 1 100 * ([(([1, 0] : List ℝ), (0 : Fin 2))].map fun p =>
          expLogWeight labMix.weights.post p.2).sum ≤
        g' + batchFactor 1 100 * ([(([1, 0] : List ℝ), (0 : Fin 2))].map fun p =>
          expLogWeight st'.weights.post p.2).sum :=
  C150_training_partial (by norm_num) _ _ _ (C87_categoricalset (by norm_num) 2) [([1, 0], 0)] (by simp)
    (by intro p hp; simp at hp; subst hp; refine ⟨rfl, ?_⟩; simp) _ labMix_labels 100 [1, 1 / 2]
    (by intro l hl; simp at hl; rcases hl with rfl | rfl <;> norm_num) labMix labMix_valid.1 labMix_valid.2

-- the weights count the labels: 1 + 100 for the first class, 1 for the second
example : ∃ st', labStep (familySet (dirFam 2) 2) labMix [[1, 0]] [-2] 100 1 = .ok st' ∧
    st'.weights.post.getD 0 0 = 101 ∧ st'.weights.post.getD 1 0 = 1 := by
  obtain ⟨st', e, _, h, _⟩ := C150_step (by norm_num) _ _ _ (C87_categoricalset (by norm_num) 2) labMix
    labMix_valid.1 labMix_valid.2 [([1, 0], 0)] (by simp)
    (by intro p hp; simp at hp; subst hp; refine ⟨rfl, ?_⟩; simp) _ labMix_labels 100 1 one_pos le_rfl
  refine ⟨st', e, (h 0).trans ?_, (h 1).trans ?_⟩ <;>
    simp [labMix, batchFactor, classCount] <;> norm_num

example : labElbo (familySet (dirFam 2) 2) labMix [[1, 0]] [2] 100 = .error .indexError :=
  ((C150_errors _ _ _ (C87_categoricalset (by norm_num) 2) labMix labMix_valid.1 labMix_valid.2 [[1, 0]]
    (by intro p hp; simp at hp; subst hp; refine ⟨rfl, ?_⟩; simp) [2] 100 1).2.1 (by simp) ⟨2, by simp, by simp⟩).1

end Verif.Props
