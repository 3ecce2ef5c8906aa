import Verif.Model.Labelled
import Verif.Spec.Labelled
import Verif.Lemmas.VBSets

/-!
# Lemmas on labels
-/

namespace Verif.VB

open Real Verif.Dists Verif.DistSpec Verif.Mixture Verif.Props

variable {X : Type}

theorem set_getD (K j i : ℕ) (hi : i < K) : ((List.replicate K 0).set j 1).getD i 0 = if i = j then 1 else 0 := by
  rw [List.getD_eq_getElem?_getD, List.getElem?_set]
  by_cases h : i = j
  · subst h
    simp [hi]
  · rw [if_neg (fun hc => h hc.symm)]
    simp [hi, h]

theorem onehotRow_class (K : ℕ) (label : ℤ) (k : Fin K) (h : labelClass K label = some k) :
    ∃ row, Utils.onehotRow K label = .ok row ∧ ∀ j : Fin K, row.getD j 0 = if j = k then 1 else 0 := by
  unfold labelClass at h
  unfold Utils.onehotRow
  split_ifs at h with h1 h2
  · refine ⟨_, if_pos h1, fun j => ?_⟩
    rw [set_getD _ _ _ j.2]
    cases h
    simp [Fin.ext_iff]
  · rw [if_neg h1]
    refine ⟨_, if_pos h2, fun j => ?_⟩
    rw [set_getD _ _ _ j.2]
    cases h
    simp [Fin.ext_iff]

theorem onehotRow_none (K : ℕ) (label : ℤ) (h : labelClass K label = none) :
    Utils.onehotRow K label = .error .indexError := by
  unfold labelClass at h
  unfold Utils.onehotRow
  split_ifs at h with h1 h2
  rw [if_neg h1, if_neg h2]

/-- The indicator of a class. -/
noncomputable def indicator {K : ℕ} (k : Fin K) : Fin K → ℝ := fun j => if j = k then 1 else 0

theorem labelledFrame_eq {K : ℕ} (llh : Fin K → ℝ) (row : List ℕ) (k : Fin K)
    (h : ∀ j : Fin K, row.getD j 0 = if j = k then 1 else 0) :
    labelledFrame llh row = ⟨indicator k, llh k⟩ := by
  have h1 : (fun j : Fin K => ((row.getD j 0 : ℕ) : ℝ)) = indicator k := by
    funext j
    rw [h j]
    unfold indicator
    split_ifs <;> simp
  have hs : ∑ j, llh j * ((row.getD j 0 : ℕ) : ℝ) = llh k := by
    have : ∀ j : Fin K, llh j * ((row.getD j 0 : ℕ) : ℝ) = if j = k then llh j else 0 := by
      intro j
      rw [h j]
      split_ifs <;> simp
    rw [Finset.sum_congr rfl fun j _ => this j]
    simp
  unfold labelledFrame
  simp only [h1, hs, sub_zero]

theorem batchScale_factor {n : ℕ} (h : 0 < n) (datasize : ℤ) :
    batchScale n datasize = .ok (batchFactor n datasize) ∧ 0 < batchFactor n datasize := by
  obtain ⟨s, e, hs⟩ := batchScale_pos h datasize
  have : s = batchFactor n datasize := by
    unfold batchScale at e
    rw [if_neg (by omega)] at e
    rw [← Except.ok.inj e]
    unfold batchFactor
    have hn : (n : ℝ) ≠ 0 := by exact_mod_cast h.ne'
    split_ifs with hd
    · push_cast
      exact div_self hn
    · rfl
  rw [← this]
  exact ⟨e, hs⟩

theorem lwOf_eq {K : ℕ} (c : List ℝ) (h : c.length = K) (k : Fin K) : lwOf K c k = expLogWeight c k := by
  obtain ⟨K, rfl⟩ : ∃ K', K = K' + 1 := ⟨K - 1, by have := k.2; omega⟩
  obtain ⟨c, rfl⟩ := exists_ofFn c h
  unfold lwOf expLogWeight
  rw [catExpLlh_eq, List.sum_ofFn, List.getD_eq_getElem _ _ (by rw [List.length_ofFn]; exact k.2),
    List.getElem_ofFn]
  simp

/-! ## Batches of labelled frames -/

theorem labels_outs {K : ℕ} (v : X → Fin K → ℝ) (pairs : List (X × Fin K)) (labels : List ℤ)
    (h : Labels pairs labels) :
    ∃ rows, Utils.onehot labels K = .ok rows ∧
      List.zipWith labelledFrame ((pairs.map Prod.fst).map v) rows =
        pairs.map fun p => (⟨indicator p.2, v p.1 p.2⟩ : LocalOut K) := by
  unfold Labels at h
  unfold Utils.onehot
  induction pairs generalizing labels with
  | nil =>
    cases labels with
    | nil => exact ⟨[], rfl, rfl⟩
    | cons y ys => simp at h
  | cons p ps ih =>
    cases labels with
    | nil => simp at h
    | cons y ys =>
      simp only [List.map_cons, List.cons.injEq] at h
      obtain ⟨row, e1, e2⟩ := onehotRow_class K y p.2 h.1
      obtain ⟨rows, e3, e4⟩ := ih ys h.2
      refine ⟨row :: rows, ?_, ?_⟩
      · rw [List.mapM_cons, e1, e3]
        rfl
      · simp only [List.map_cons, List.zipWith_cons_cons]
        rw [e4, labelledFrame_eq _ row p.2 e2]

theorem labels_length {K : ℕ} (pairs : List (X × Fin K)) (labels : List ℤ) (h : Labels pairs labels) :
    labels.length = (pairs.map Prod.fst).length := by
  have := congrArg List.length h
  simpa using this

theorem labels_error {K : ℕ} (labels : List ℤ) (h : ∃ y ∈ labels, labelClass K y = none) :
    Utils.onehot labels K = .error .indexError := by
  unfold Utils.onehot
  induction labels with
  | nil => simp at h
  | cons y ys ih =>
    rw [List.mapM_cons]
    cases hy : labelClass K y with
    | none => rw [onehotRow_none K y hy]; rfl
    | some k =>
      obtain ⟨row, e1, _⟩ := onehotRow_class K y k hy
      rw [e1]
      obtain ⟨z, hz, hn⟩ := h
      rcases List.mem_cons.1 hz with rfl | hz
      · rw [hy] at hn; cases hn
      · have := ih ⟨z, hz, hn⟩
        rw [this]
        rfl

theorem labels_exist {K : ℕ} (data : List X) (labels : List ℤ) (hl : labels.length = data.length)
    (h : ∀ y ∈ labels, labelClass K y ≠ none) :
    ∃ pairs : List (X × Fin K), pairs.map Prod.fst = data ∧ Labels pairs labels := by
  unfold Labels
  induction data generalizing labels with
  | nil => exact ⟨[], rfl, by simp at hl; simp [hl]⟩
  | cons x xs ih =>
    cases labels with
    | nil => simp at hl
    | cons y ys =>
      obtain ⟨ps, h1, h2⟩ := ih ys (by simpa using hl) fun z hz => h z (by simp [hz])
      obtain ⟨k, hk⟩ := Option.ne_none_iff_exists'.1 (h y (by simp))
      exact ⟨(x, k) :: ps, by simp [h1], by simp [h2, hk]⟩

theorem count_sum {K : ℕ} (pairs : List (X × Fin K)) (k : Fin K) (s : ℝ) :
    ((pairs.map fun p => (s * 1, List.ofFn (indicator p.2))).map fun r : ℝ × List ℝ => r.1 * r.2.getD k 0).sum =
      s * classCount pairs k := by
  unfold classCount
  induction pairs with
  | nil => simp
  | cons p ps ih =>
    rw [List.map_cons, List.map_cons, List.sum_cons, ih, List.countP_cons]
    by_cases h : p.2 = k
    · simp [indicator, h]
      ring
    · have : ¬ k = p.2 := fun hc => h hc.symm
      simp [indicator, h, this]

theorem lab_weights {K : ℕ} (hK : 1 ≤ K) (c : CParam (List ℝ)) (hc : ParamValid (DirValid K) c)
    (pairs : List (X × Fin K)) (s l : ℝ) :
    (dirFam K).update c ((dirConj hK).acc (pairs.map fun p => ((1 : ℝ), List.ofFn (indicator p.2))) s) l =
      .ok ⟨c.prior, List.ofFn fun k : Fin K => (1 - l) * c.post.getD k 0 +
        l * (c.prior.getD k 0 + s * classCount pairs k)⟩ := by
  have hd : ∀ r ∈ pairs.map (fun p => (s * 1, List.ofFn (indicator p.2))), (r : ℝ × List ℝ).2.length = K := by
    intro r hr
    obtain ⟨p, _, rfl⟩ := List.mem_map.1 hr
    simp
  have hw := length_wsum K _ hd
  have he : ((pairs.map fun p => ((1 : ℝ), List.ofFn (indicator p.2))).map fun r => (s * r.1, r.2)) =
      pairs.map fun p => (s * 1, List.ofFn (indicator p.2)) := by
    rw [List.map_map]
    rfl
  rw [(dirConj hK).acc_eq, he]
  have h := dir_update_eq K hK c.prior c.post _ l hc.1.1 hc.2.1 hd
  have hlen : (wsum K ((pairs.map fun p => (s * 1, List.ofFn (indicator p.2))).map
      fun r => (r.1, catStats r.2))).length = K := by
    apply length_wsum
    intro r hr
    obtain ⟨r', hr', rfl⟩ := List.mem_map.1 hr
    show (catStats r'.2).length = K
    have := hd r' hr'
    rw [length_catStats _ (by rintro h0; rw [h0] at this; simp at this; omega), this]
  unfold Family.update
  show (if _ then _ else _) = _
  rw [if_neg (by
    show ¬ ((dirNatural c.prior).length ≠ (wsum K _).length ∨ _)
    rw [dir_len hK hc.1, show (dirFam K).stats = catStats from rfl, hlen]
    show ¬ (K ≠ K ∨ K ≠ (dirNatural c.post).length)
    rw [dir_len hK hc.2]
    simp)]
  show (natGradUpdate dirNatural dirFromNatural c.prior c.post _ l >>= _) = _
  have h' : natGradUpdate dirNatural dirFromNatural c.prior c.post (wsum (dirFam K).sdim
      ((pairs.map fun p => (s * 1, List.ofFn (indicator p.2))).map fun r => (r.1, (dirFam K).stats r.2))) l = _ := h
  rw [h']
  show Except.ok _ = _
  congr 2
  apply List.ext_getElem (by simp only [List.length_map, vadd, vsmul, List.length_zipWith, hw, hc.1.1, hc.2.1,
    List.length_ofFn, min_self])
  intro i h3 h4
  have hi : i < K := by simpa using h4
  have e := getD_wsum K _ hd i
  rw [List.getD_eq_getElem _ _ (by omega)] at e
  have e2 := count_sum pairs ⟨i, hi⟩ s
  have e3 := e.trans e2
  simp only [List.getElem_map, vadd, vsmul, List.getElem_zipWith, List.getElem_ofFn]
  rw [e3, List.getD_eq_getElem _ _ (by rw [hc.2.1]; exact hi), List.getD_eq_getElem _ _ (by rw [hc.1.1]; exact hi)]
  ring

theorem lab_outs {K : ℕ} (inner : SetModel X K) (V : inner.State → Prop) (XV : X → Prop)
    (hin : Lawful inner V XV) (st : MixState inner) (hv : MixValid inner V st) (pairs : List (X × Fin K))
    (hd : ∀ p ∈ pairs, XV p.1) (labels : List ℤ) (hl : Labels pairs labels) :
    labOuts inner st (pairs.map Prod.fst) labels =
      .ok (pairs.map fun p => ⟨indicator p.2, valueOf 0 (inner.llh st.comps p.1) p.2⟩) := by
  unfold labOuts
  rw [logWeights_eq _ hv.1.2.1, ok_bind, mapM_ok_map _ (fun x => valueOf 0 (inner.llh st.comps x)) (pairs.map Prod.fst)
    (by
      intro x hx
      obtain ⟨p, hp, rfl⟩ := List.mem_map.1 hx
      obtain ⟨v, e⟩ := hin.llh_ok st.comps p.1 hv.2 (hd p hp)
      rw [e]
      rfl), ok_bind]
  obtain ⟨rows, e1, e2⟩ := labels_outs (fun x => valueOf 0 (inner.llh st.comps x)) pairs labels hl
  rw [e1, ok_bind, if_neg (by simpa using labels_length pairs labels hl), e2]

theorem mix_kl {K : ℕ} (hK : 1 ≤ K) (inner : SetModel X K) (V : inner.State → Prop) (XV : X → Prop)
    (hin : Lawful inner V XV) (st : MixState inner) (hv : MixValid inner V st) :
    mixKl inner st = .ok (valueOf 0 (inner.kl st.comps) + (dirConj hK).D st.weights.post st.weights.prior) := by
  obtain ⟨k, h, _⟩ := hin.kl_ok st.comps hv.2
  unfold mixKl
  rw [h, (dirConj hK).paramKl_eq _ hv.1]
  rfl

theorem lab_elbo {K : ℕ} (hK : 1 ≤ K) (inner : SetModel X K) (V : inner.State → Prop) (XV : X → Prop)
    (hin : Lawful inner V XV) (st : MixState inner) (hv : MixValid inner V st) (pairs : List (X × Fin K))
    (hne : pairs ≠ []) (hd : ∀ p ∈ pairs, XV p.1) (labels : List ℤ) (hl : Labels pairs labels) (datasize : ℤ) :
    labElbo inner st (pairs.map Prod.fst) labels datasize =
      .ok (batchFactor pairs.length datasize * (pairs.map fun p => valueOf 0 (inner.llh st.comps p.1) p.2).sum -
        (valueOf 0 (inner.kl st.comps) + (dirConj hK).D st.weights.post st.weights.prior)) := by
  unfold labElbo
  rw [List.length_map, (batchScale_factor (List.length_pos_iff.2 hne) datasize).1, ok_bind,
    lab_outs inner V XV hin st hv pairs hd labels hl, ok_bind, mix_kl hK inner V XV hin st hv]
  show Except.ok _ = _
  rw [List.map_map]
  rfl

theorem indicator_sum {K : ℕ} (k : Fin K) (f : Fin K → ℝ) : ∑ j, indicator k j * f j = f k := by
  unfold indicator
  simp

theorem zipWith_pairs {K : ℕ} (pairs : List (X × Fin K)) (v : X × Fin K → ℝ) :
    List.zipWith (fun x o => (x, LocalOut.resps o)) (pairs.map Prod.fst)
      (pairs.map fun p => (⟨indicator p.2, v p⟩ : LocalOut K)) = pairs.map fun p => (p.1, indicator p.2) := by
  induction pairs with
  | nil => rfl
  | cons p ps ih => simp [ih]

/-- One step: the new parameters and what they gain. -/
theorem lab_step {K : ℕ} (hK : 1 ≤ K) (inner : SetModel X K) (V : inner.State → Prop) (XV : X → Prop)
    (hin : Lawful inner V XV) (st : MixState inner) (hv : MixValid inner V st) (pairs : List (X × Fin K))
    (hne : pairs ≠ []) (hd : ∀ p ∈ pairs, XV p.1) (labels : List ℤ) (hl : Labels pairs labels) (datasize : ℤ)
    (l : ℝ) (h0 : 0 < l) (h1 : l ≤ 1) :
    ∃ s' w, labStep inner st (pairs.map Prod.fst) labels datasize l = .ok ⟨⟨st.weights.prior, w⟩, s'⟩ ∧
      MixValid inner V ⟨⟨st.weights.prior, w⟩, s'⟩ ∧
      inner.step st.comps (pairs.map fun p => (p.1, indicator p.2)) (batchFactor pairs.length datasize) l = .ok s' ∧
      w = List.ofFn (fun k : Fin K => (1 - l) * st.weights.post.getD k 0 +
        l * (st.weights.prior.getD k 0 + batchFactor pairs.length datasize * classCount pairs k)) ∧
      valueOf 0 (inner.kl s') - valueOf 0 (inner.kl st.comps) ≤ batchFactor pairs.length datasize *
        (pairs.map fun p => valueOf 0 (inner.llh s' p.1) p.2 - valueOf 0 (inner.llh st.comps p.1) p.2).sum ∧
      (dirConj hK).D w st.weights.prior - (dirConj hK).D st.weights.post st.weights.prior ≤
        batchFactor pairs.length datasize *
          (pairs.map fun p => expLogWeight w p.2 - expLogWeight st.weights.post p.2).sum := by
  obtain ⟨hs, hpos⟩ := batchScale_factor (List.length_pos_iff.2 hne) datasize
  set s := batchFactor pairs.length datasize with hsdef
  have hrow : ∀ r ∈ pairs.map (fun p => ((1 : ℝ), List.ofFn (indicator p.2))), 0 ≤ r.1 ∧ CountsValid K r.2 := by
    intro r hr
    obtain ⟨p, _, rfl⟩ := List.mem_map.1 hr
    refine ⟨zero_le_one, by simp, ?_⟩
    intro v hv
    rw [List.mem_ofFn] at hv
    obtain ⟨j, rfl⟩ := hv
    unfold indicator
    split_ifs <;> norm_num
  obtain ⟨w, e1, v1, _, e3⟩ := (dirConj hK).gain st.weights _ s l hv.1 hrow hpos.le h0 h1
  have hw := lab_weights hK st.weights hv.1 pairs s l
  rw [e1] at hw
  have hw' := congrArg CParam.post (Except.ok.inj hw)
  obtain ⟨s', s1, s2, s3⟩ := hin.step_ok st.comps (pairs.map fun p => (p.1, indicator p.2)) s l hv.2 (by
    intro r hr
    obtain ⟨p, hp, rfl⟩ := List.mem_map.1 hr
    refine ⟨hd p hp, fun j => ?_⟩
    show 0 ≤ indicator p.2 j
    unfold indicator
    split_ifs <;> norm_num) hpos.le h0 h1
  refine ⟨s', w, ?_, ⟨⟨hv.1.1, v1⟩, s2⟩, s1, hw', ?_, ?_⟩
  · unfold labStep
    rw [List.length_map, hs, ok_bind, lab_outs inner V XV hin st hv pairs hd labels hl, ok_bind]
    have hu : (dirFam K).update st.weights (vsmul s (mixCatStats ((pairs.map fun p =>
        (⟨indicator p.2, valueOf 0 (inner.llh st.comps p.1) p.2⟩ : LocalOut K)).map fun o => o.resps))) l =
        .ok ⟨st.weights.prior, w⟩ := by
      rw [← e1]
      unfold mixCatStats Conj.acc
      rw [List.map_map, List.map_map, List.map_map]
      rfl
    rw [hu, ok_bind, zipWith_pairs, s1]
    rfl
  · rw [List.map_map] at s3
    refine s3.trans (le_of_eq ?_)
    congr 2
    apply List.map_congr_left
    intro p _
    exact indicator_sum p.2 _
  · rw [List.map_map] at e3
    have hge : 0 ≤ ((1 - l) * (dirConj hK).D w st.weights.post + (dirConj hK).D st.weights.post w) / l := by
      have a1 : 0 ≤ (dirConj hK).D w st.weights.post := (dirConj hK).kl_nonneg _ _ v1 hv.1.2
      have a2 : 0 ≤ (dirConj hK).D st.weights.post w := (dirConj hK).kl_nonneg _ _ hv.1.2 v1
      have a3 : 0 ≤ 1 - l := by linarith
      positivity
    rw [← e3] at hge
    refine (sub_nonneg.1 hge).trans (le_of_eq ?_)
    congr 2
    apply List.map_congr_left
    intro p _
    show 1 * (vdot (dirExpStats w) (catStats (List.ofFn (indicator p.2))) -
      vdot (dirExpStats st.weights.post) (catStats (List.ofFn (indicator p.2)))) = _
    rw [vdot_catStats hK _ v1.1, vdot_catStats hK _ hv.1.2.1, indicator_sum, indicator_sum, lwOf_eq _ v1.1,
      lwOf_eq _ hv.1.2.1, one_mul]

end Verif.VB
