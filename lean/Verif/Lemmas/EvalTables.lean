import Verif.Lemmas.EvalInfo

/-!
# Tables of counts of `compare-alignments.py` and their mutual information
-/

namespace Verif.Eval

open Verif Pipeline Scoring EvalSpec Filter Topology

/-! ## Dictionaries -/

section dict

variable {F : Type} [Field F]

theorem addTo_lookup (eps : F) (d : List (String × F)) (k : String) (v : F) (x : String) :
    (addTo eps d k v).lookup x = if x = k then some ((d.lookup k).getD eps + v) else d.lookup x := by
  unfold addTo
  rw [lookup_dictSet, getOr_lookup]

theorem addTo_nodup (eps : F) (d : List (String × F)) (k : String) (v : F) (h : (d.map Prod.fst).Nodup) :
    ((addTo eps d k v).map Prod.fst).Nodup := dictSet_nodup _ _ _ h

/-- `d[k] += 1` for all the keys of a list. -/
def addAll (eps : F) (ks : List String) (d : List (String × F)) : List (String × F) :=
  ks.foldl (fun d k => addTo eps d k 1) d

theorem addAll_lookup (eps : F) (ks : List String) (d : List (String × F)) (x : String) :
    (addAll eps ks d).lookup x =
      if x ∈ ks then some ((d.lookup x).getD eps + (ks.count x : F)) else d.lookup x := by
  induction ks generalizing d with
  | nil => simp [addAll]
  | cons k ks ih =>
    have : addAll eps (k :: ks) d = addAll eps ks (addTo eps d k 1) := rfl
    rw [this, ih, addTo_lookup, List.count_cons]
    by_cases hx : x = k
    · subst hx
      by_cases hm : x ∈ ks
      · simp [hm]; ring
      · simp [hm, List.count_eq_zero_of_not_mem hm]
    · have : (k == x) = false := by simpa using Ne.symm hx
      simp [hx, this]

theorem addAll_nodup (eps : F) (ks : List String) (d : List (String × F)) (h : (d.map Prod.fst).Nodup) :
    ((addAll eps ks d).map Prod.fst).Nodup := by
  induction ks generalizing d with
  | nil => exact h
  | cons k ks ih => exact ih _ (addTo_nodup _ _ _ _ h)

theorem addAll_finset (eps : F) (ks : List String) :
    ((addAll eps ks []).map Prod.fst).toFinset = ks.toFinset := by
  ext x
  rw [List.mem_toFinset, List.mem_toFinset, ← not_iff_not, ← lookup_none, addAll_lookup]
  by_cases hx : x ∈ ks <;> simp [hx]

/-! ## The tables -/

/-- The effect of one frame. -/
def frameStep (eps : F) (t : Tables F) (x : String × String) : Tables F :=
  ⟨dictSet t.joint x.1 (addTo eps (getOr t.joint x.1 []) x.2 1), addTo eps t.ref x.1 1, addTo eps t.hyp x.2 1⟩

theorem frames_ref (eps : F) (ps : List (String × String)) (t : Tables F) :
    (ps.foldl (frameStep eps) t).ref = addAll eps (ps.map Prod.fst) t.ref := by
  induction ps generalizing t with
  | nil => rfl
  | cons x ps ih => rw [List.foldl_cons, ih]; rfl

theorem frames_hyp (eps : F) (ps : List (String × String)) (t : Tables F) :
    (ps.foldl (frameStep eps) t).hyp = addAll eps (ps.map Prod.snd) t.hyp := by
  induction ps generalizing t with
  | nil => rfl
  | cons x ps ih => rw [List.foldl_cons, ih]; rfl

/-- The second elements of the pairs with a given first one. -/
def withRef (ps : List (String × String)) (r : String) : List String :=
  (ps.filter fun x => x.1 = r).map Prod.snd

theorem frames_joint (eps : F) (ps : List (String × String)) (t : Tables F) (r : String) :
    getOr (ps.foldl (frameStep eps) t).joint r [] = addAll eps (withRef ps r) (getOr t.joint r []) := by
  induction ps generalizing t with
  | nil => rfl
  | cons x ps ih =>
    rw [List.foldl_cons, ih]
    have hg : getOr (frameStep eps t x).joint r [] =
        if r = x.1 then addTo eps (getOr t.joint x.1 []) x.2 1 else getOr t.joint r [] := by
      rw [getOr_lookup]
      unfold frameStep
      rw [lookup_dictSet]
      by_cases h : r = x.1
      · simp [h]
      · simp [h, getOr_lookup]
    rw [hg]
    by_cases h : r = x.1
    · subst h
      rw [if_pos rfl]
      have : withRef (x :: ps) x.1 = x.2 :: withRef ps x.1 := by simp [withRef]
      rw [this]
      rfl
    · rw [if_neg h]
      have : withRef (x :: ps) r = withRef ps r := by
        simp [withRef, Ne.symm h]
      rw [this]

/-- The symbols of the frames, or the `KeyError` of a state without symbol. -/
theorem compareFrames_ok (eps : F) (refMap hypMap : List (ℕ × String)) (rf hf : ℕ → String)
    (frames : List (ℕ × ℕ)) (t : Tables F)
    (hr : ∀ x ∈ frames, dictGet refMap x.1 = .ok (rf x.1)) (hh : ∀ x ∈ frames, dictGet hypMap x.2 = .ok (hf x.2)) :
    compareFrames eps refMap hypMap frames t =
      .ok ((frames.map fun x => (rf x.1, hf x.2)).foldl (frameStep eps) t) := by
  induction frames generalizing t with
  | nil => rfl
  | cons x frames ih =>
    obtain ⟨r, h⟩ := x
    have h1 := hr (r, h) List.mem_cons_self
    have h2 := hh (r, h) List.mem_cons_self
    rw [compareFrames, h1, h2]
    dsimp only
    rw [ih _ (fun x hx => hr x (List.mem_cons_of_mem _ hx)) (fun x hx => hh x (List.mem_cons_of_mem _ hx))]
    rfl

theorem compareFrames_error (eps : F) (refMap hypMap : List (ℕ × String))
    (frames : List (ℕ × ℕ)) (t : Tables F)
    (h : ∃ x ∈ frames, dictGet refMap x.1 = .error .keyError ∨ dictGet hypMap x.2 = .error .keyError) :
    compareFrames eps refMap hypMap frames t = .error .keyError := by
  have hd : ∀ (d : List (ℕ × String)) k, (∃ v, dictGet d k = .ok v) ∨ dictGet d k = .error .keyError := by
    intro d k
    unfold dictGet
    cases d.find? (fun p => p.1 = k) with
    | none => exact Or.inr rfl
    | some p => exact Or.inl ⟨p.2, rfl⟩
  induction frames generalizing t with
  | nil => simp at h
  | cons x frames ih =>
    obtain ⟨r, s⟩ := x
    rw [compareFrames]
    rcases hd refMap r with ⟨v, hv⟩ | hv
    · rcases hd hypMap s with ⟨w, hw⟩ | hw
      · rw [hv, hw]
        dsimp only
        refine ih _ ?_
        obtain ⟨x, hx, h⟩ := h
        rw [List.mem_cons] at hx
        rcases hx with rfl | hx
        · dsimp only at h
          rw [hv, hw] at h
          simp at h
        · exact ⟨x, hx, h⟩
      · rw [hv, hw]
    · rw [hv]

end dict

/-! ## Entropies of dictionaries -/

/-- The keys of the dictionary are the elements of a list and the values tend to their counts. -/
structure DictTends (d : ℝ → List (String × ℝ)) (ks : List String) : Prop where
  nodup : ∀ e, ((d e).map Prod.fst).Nodup
  keys : ∀ e, ((d e).map Prod.fst).toFinset = ks.toFinset
  vals : ∀ k ∈ ks, Tendsto (fun e => ((d e).lookup k).getD default) (𝓝 0) (𝓝 (ks.count k : ℝ))

theorem addAll_tends (ks : List String) : DictTends (fun e => addAll e ks []) ks where
  nodup := fun e => addAll_nodup e ks [] (by simp)
  keys := fun e => addAll_finset e ks
  vals := fun k hk => by
    simp only [addAll_lookup, if_pos hk]
    simpa using entry_tendsto (ks.count k : ℝ)

theorem DictTends.total {d : ℝ → List (String × ℝ)} {ks : List String} (h : DictTends d ks) :
    Tendsto (fun e => ((d e).map Prod.snd).sum) (𝓝 0) (𝓝 (ks.length : ℝ)) := by
  have : ∀ e, ((d e).map Prod.snd).sum = ∑ k ∈ ks.toFinset, ((d e).lookup k).getD default := by
    intro e
    rw [← h.keys e]
    exact dict_sum (d e) (h.nodup e) fun _ v => v
  simp only [this]
  rw [← List.sum_toFinset_count_eq_length ks, Nat.cast_sum]
  exact tendsto_finset_sum _ fun k hk => h.vals k (List.mem_toFinset.1 hk)

/-- A weighted sum of the normalised values. -/
theorem DictTends.sum {d : ℝ → List (String × ℝ)} {ks : List String} (h : DictTends d ks) (hne : ks ≠ [])
    (f : ℝ → String → ℝ → ℝ) (g : String → ℝ)
    (hf : ∀ k ∈ ks, ∀ v : ℝ → ℝ, Tendsto v (𝓝 0) (𝓝 (freq ks k)) →
      Tendsto (fun e => f e k (v e)) (𝓝 0) (𝓝 (g k))) :
    Tendsto (fun e => ((normalised (d e)).map fun p => f e p.1 p.2).sum) (𝓝 0) (𝓝 (∑ k ∈ ks.toFinset, g k)) := by
  have : ∀ e, ((normalised (d e)).map fun p => f e p.1 p.2).sum =
      ∑ k ∈ ks.toFinset, f e k (((d e).lookup k).getD default / ((d e).map Prod.snd).sum) := by
    intro e
    rw [← h.keys e, ← dict_sum (d e) (h.nodup e) fun k v => f e k (v / ((d e).map Prod.snd).sum)]
    unfold normalised
    rw [List.map_map]
    rfl
  simp only [this]
  refine tendsto_finset_sum _ fun k hk => ?_
  have hk := List.mem_toFinset.1 hk
  refine hf k hk _ ((h.vals k hk).div h.total ?_)
  simpa using hne

theorem DictTends.entropy {d : ℝ → List (String × ℝ)} {ks : List String} (h : DictTends d ks) (hne : ks ≠ []) :
    Tendsto (fun e => ((normalised (d e)).map fun p => - p.2 * Real.log p.2).sum) (𝓝 0)
      (𝓝 (∑ k ∈ ks.toFinset, Real.negMulLog (freq ks k))) :=
  h.sum hne (fun _ _ v => - v * Real.log v) _ fun _ _ _ hv =>
    (Real.continuous_negMulLog.tendsto _).comp hv

/-- The tables of counts of a list of pairs, up to the smoothing constant. -/
structure TablesTend (t : ℝ → Tables ℝ) (qs : List (String × String)) : Prop where
  ref : DictTends (fun e => (t e).ref) (qs.map Prod.fst)
  hyp : DictTends (fun e => (t e).hyp) (qs.map Prod.snd)
  joint : ∀ r ∈ qs.map Prod.fst, DictTends (fun e => getOr (t e).joint r []) (withRef qs r)

theorem frames_tend (ps : List (String × String)) :
    TablesTend (fun e => ps.foldl (frameStep e) ⟨[], [], []⟩) ps where
  ref := by
    simp only [frames_ref]
    exact addAll_tends _
  hyp := by
    simp only [frames_hyp]
    exact addAll_tends _
  joint := fun r _ => by
    simp only [frames_joint]
    exact addAll_tends _

/-! ## Counts of pairs -/

section pairs

variable (qs : List (String × String))

theorem withRef_count (r h : String) : (withRef qs r).count h = qs.count (r, h) := by
  unfold withRef
  rw [List.count_eq_countP, List.countP_map, List.countP_filter, List.count_eq_countP]
  refine List.countP_congr fun x _ => ?_
  obtain ⟨a, b⟩ := x
  simp only [Function.comp, Bool.and_eq_true, beq_iff_eq, decide_eq_true_eq, Prod.mk.injEq]
  tauto

theorem withRef_length (r : String) : (withRef qs r).length = (qs.map Prod.fst).count r := by
  unfold withRef
  rw [List.length_map, ← List.countP_eq_length_filter, List.count_eq_countP, List.countP_map]
  refine List.countP_congr fun x _ => ?_
  simp [Function.comp]

theorem withRef_mem (r h : String) (hh : h ∈ withRef qs r) : h ∈ qs.map Prod.snd := by
  unfold withRef at hh
  obtain ⟨x, hx, rfl⟩ := List.mem_map.1 hh
  exact List.mem_map_of_mem (List.mem_filter.1 hx).1

theorem withRef_ne (r : String) (hr : r ∈ qs.map Prod.fst) : withRef qs r ≠ [] := by
  rw [← List.length_pos_iff, withRef_length]
  exact List.count_pos_iff.2 hr

theorem row_sum (r : String) :
    ∑ h ∈ (qs.map Prod.snd).toFinset, (pairCount qs r h : ℝ) = (qs.map Prod.fst).count r := by
  rw [← Nat.cast_sum, ← withRef_length, ← List.sum_toFinset_count_eq_length]
  congr 1
  symm
  have : ∀ h, pairCount qs r h = (withRef qs r).count h := fun h => (withRef_count qs r h).symm
  simp only [this]
  refine Finset.sum_subset ?_ ?_
  · intro h hh
    exact List.mem_toFinset.2 (withRef_mem qs r h (List.mem_toFinset.1 hh))
  · intro h _ hh
    exact List.count_eq_zero_of_not_mem fun hm => hh (List.mem_toFinset.2 hm)

theorem pairCount_swap (r h : String) : pairCount (qs.map Prod.swap) h r = pairCount qs r h := by
  unfold pairCount
  rw [List.count_eq_countP, List.countP_map, List.count_eq_countP]
  refine List.countP_congr fun x _ => ?_
  obtain ⟨a, b⟩ := x
  simp only [Function.comp, beq_iff_eq, Prod.swap, Prod.mk.injEq]
  tauto

theorem col_sum (h : String) :
    ∑ r ∈ (qs.map Prod.fst).toFinset, (pairCount qs r h : ℝ) = (qs.map Prod.snd).count h := by
  have h1 := row_sum (qs.map Prod.swap) h
  rw [List.map_map, List.map_map] at h1
  simp only [pairCount_swap] at h1
  exact h1

theorem pairs_tot : tot (qs.map Prod.fst).toFinset (qs.map Prod.snd).toFinset (fun r h => (pairCount qs r h : ℝ)) =
    qs.length := by
  unfold tot
  simp only [row_sum]
  rw [← Nat.cast_sum, List.sum_toFinset_count_eq_length, List.length_map]

theorem pairs_good (hne : qs ≠ []) :
    GoodTable (qs.map Prod.fst).toFinset (qs.map Prod.snd).toFinset fun r h => (pairCount qs r h : ℝ) where
  nonneg := fun _ _ _ _ => Nat.cast_nonneg _
  row := fun r hr => by
    rw [row_sum]
    exact_mod_cast List.count_pos_iff.2 (List.mem_toFinset.1 hr)
  col := fun h hh => by
    rw [col_sum]
    exact_mod_cast List.count_pos_iff.2 (List.mem_toFinset.1 hh)
  ne := by
    obtain ⟨x, hx⟩ := List.exists_mem_of_ne_nil _ hne
    exact ⟨x.1, List.mem_toFinset.2 (List.mem_map_of_mem hx)⟩

theorem margX_freq (r : String) :
    margX (qs.map Prod.fst).toFinset (qs.map Prod.snd).toFinset (fun r h => (pairCount qs r h : ℝ)) r =
      freq (qs.map Prod.fst) r := by
  unfold margX freq
  rw [row_sum, pairs_tot, List.length_map]

theorem margY_freq (h : String) :
    margY (qs.map Prod.fst).toFinset (qs.map Prod.snd).toFinset (fun r h => (pairCount qs r h : ℝ)) h =
      freq (qs.map Prod.snd) h := by
  unfold margY freq
  rw [col_sum, pairs_tot, List.length_map]

theorem condEnt_pairs :
    condEnt (qs.map Prod.fst).toFinset (qs.map Prod.snd).toFinset (fun r h => (pairCount qs r h : ℝ)) =
      ∑ r ∈ (qs.map Prod.fst).toFinset, freq (qs.map Prod.fst) r *
        ∑ h ∈ (withRef qs r).toFinset, Real.negMulLog (freq (withRef qs r) h) := by
  unfold condEnt
  rw [pairs_tot, ← Finset.sum_neg_distrib]
  refine Finset.sum_congr rfl fun r hr => ?_
  have hr := List.mem_toFinset.1 hr
  rw [row_sum]
  have hsub : (withRef qs r).toFinset ⊆ (qs.map Prod.snd).toFinset := fun h hh =>
    List.mem_toFinset.2 (withRef_mem qs r h (List.mem_toFinset.1 hh))
  rw [Finset.sum_subset hsub fun h _ hh => ?_]
  · rw [Finset.mul_sum, ← Finset.sum_neg_distrib]
    refine Finset.sum_congr rfl fun h _ => ?_
    have hc : (0 : ℝ) < (qs.map Prod.fst).count r := by exact_mod_cast List.count_pos_iff.2 hr
    unfold freq Real.negMulLog
    rw [withRef_count, withRef_length, List.length_map]
    change -((qs.count (r, h) : ℝ) / qs.length * Real.log ((qs.count (r, h) : ℝ) / ((qs.map Prod.fst).count r : ℝ))) = _
    field_simp
  · unfold freq
    rw [List.count_eq_zero_of_not_mem fun hm => hh (List.mem_toFinset.2 hm)]
    simp

end pairs

/-! ## All the utterances -/

theorem compareAlis_ok {F : Type} [Field F] (eps : F) (refMap hypMap : List (ℕ × String)) (rf hf : ℕ → String)
    (hyps refs : List (String × List ℕ)) (h0 : Option (List ℕ)) (t : Tables F)
    (hp : ∀ p ∈ refs, p.1 ∈ hyps.map Prod.fst)
    (hr : ∀ x ∈ stateFrames refs hyps, dictGet refMap x.1 = .ok (rf x.1))
    (hh : ∀ x ∈ stateFrames refs hyps, dictGet hypMap x.2 = .ok (hf x.2)) :
    compareAlis eps refMap hypMap hyps refs h0 t =
      .ok (((stateFrames refs hyps).map fun x => (rf x.1, hf x.2)).foldl (frameStep eps) t) := by
  induction refs generalizing h0 t with
  | nil => rfl
  | cons p refs ih =>
    obtain ⟨f, ra⟩ := p
    have hs : stateFrames ((f, ra) :: refs) hyps = ra.zip ((hyps.lookup f).getD []) ++ stateFrames refs hyps := by
      unfold stateFrames; rw [List.flatMap_cons]
    rw [hs] at hr hh
    have hex : ∃ l, hyps.lookup f = some l := by
      cases hl : hyps.lookup f with
      | none => exact absurd (hp (f, ra) List.mem_cons_self) ((lookup_none hyps f).1 hl)
      | some l => exact ⟨l, rfl⟩
    obtain ⟨l, hl⟩ := hex
    rw [compareAlis, find_lookup, hl]
    rw [hl] at hr hh
    simp only [Option.map_some, Option.getD_some] at hr hh ⊢
    rw [compareFrames_ok eps refMap hypMap rf hf _ _
      (fun x hx => hr x (List.mem_append_left _ hx)) (fun x hx => hh x (List.mem_append_left _ hx))]
    dsimp only
    rw [ih _ _ (fun p hp' => hp p (List.mem_cons_of_mem _ hp')) (fun x hx => hr x (List.mem_append_right _ hx))
      (fun x hx => hh x (List.mem_append_right _ hx)), hs, hl, List.map_append, List.foldl_append]
    rfl

/-! ## Groups -/

section groups

/-- `d[k] += v` for all the pairs of a list. -/
def addList {F : Type} [Field F] (eps : F) (l : List (String × F)) (d : List (String × F)) : List (String × F) :=
  l.foldl (fun d x => addTo eps d x.1 x.2) d

theorem addList_lookup {F : Type} [Field F] (eps : F) (l d : List (String × F)) (k : String) :
    (addList eps l d).lookup k = if k ∈ l.map Prod.fst then
      some ((d.lookup k).getD eps + (l.map fun x => if x.1 = k then x.2 else 0).sum) else d.lookup k := by
  induction l generalizing d with
  | nil => simp [addList]
  | cons x l ih =>
    have : addList eps (x :: l) d = addList eps l (addTo eps d x.1 x.2) := rfl
    rw [this, ih, addTo_lookup, List.map_cons, List.map_cons, List.sum_cons]
    simp only [List.mem_cons]
    by_cases hx : k = x.1
    · subst hx
      by_cases hm : x.1 ∈ l.map Prod.fst
      · simp only [hm, if_true, or_true, Option.getD_some]
        rw [add_assoc]
      · have hz : (l.map fun y => if y.1 = x.1 then y.2 else 0).sum = 0 := by
          refine List.sum_eq_zero fun v hv => ?_
          obtain ⟨y, hy, rfl⟩ := List.mem_map.1 hv
          rw [if_neg]
          intro h
          exact hm (h ▸ List.mem_map_of_mem hy)
        simp only [hm, if_true, or_false, if_false, hz, add_zero]
    · simp only [hx, if_false, false_or, Ne.symm hx, zero_add]

theorem addList_nodup {F : Type} [Field F] (eps : F) (l d : List (String × F)) (h : (d.map Prod.fst).Nodup) :
    ((addList eps l d).map Prod.fst).Nodup := by
  induction l generalizing d with
  | nil => exact h
  | cons k ks ih => exact ih _ (addTo_nodup _ _ _ _ h)

theorem addList_finset {F : Type} [Field F] (eps : F) (l : List (String × F)) :
    ((addList eps l []).map Prod.fst).toFinset = (l.map Prod.fst).toFinset := by
  ext x
  rw [List.mem_toFinset, List.mem_toFinset, ← not_iff_not, ← lookup_none, addList_lookup]
  by_cases hx : x ∈ l.map Prod.fst
  · rw [if_pos hx]; simp [hx]
  · rw [if_neg hx]; simp [hx]

theorem group_fold {F : Type} [Field F] (eps : F) (groups : List (String × List String)) (t : Tables F)
    (g : List (String × List (String × F)) × List (String × F)) :
    groups.foldl (fun g x => x.2.foldl (groupSym eps t x.1) g) g =
      (members groups).foldl (fun g y => groupSym eps t y.1 g y.2) g := by
  unfold members
  rw [List.foldl_flatMap]
  congr 1
  funext g x
  rw [List.foldl_map]

theorem group_ref {F : Type} [Field F] (eps : F) (ms : List (String × String)) (t : Tables F)
    (g : List (String × List (String × F)) × List (String × F)) :
    (ms.foldl (fun g y => groupSym eps t y.1 g y.2) g).2 =
      addList eps (ms.map fun y => (y.1, getOr t.ref y.2 eps)) g.2 := by
  induction ms generalizing g with
  | nil => rfl
  | cons y ms ih => rw [List.foldl_cons, ih]; rfl

theorem group_row {F : Type} [Field F] (eps : F) (row : List (String × F)) (name k : String)
    (j : List (String × List (String × F))) :
    getOr (row.foldl (fun j y => dictSet j name (addTo eps (getOr j name []) y.1 y.2)) j) k [] =
      if k = name then addList eps row (getOr j name []) else getOr j k [] := by
  induction row generalizing j with
  | nil =>
    by_cases h : k = name
    · subst h; simp [addList]
    · simp [h]
  | cons y row ih =>
    rw [List.foldl_cons, ih]
    have hg : ∀ k, getOr (dictSet j name (addTo eps (getOr j name []) y.1 y.2)) k [] =
        if k = name then addTo eps (getOr j name []) y.1 y.2 else getOr j k [] := by
      intro k
      rw [getOr_lookup, lookup_dictSet]
      by_cases h : k = name
      · simp [h]
      · simp [h, getOr_lookup]
    rw [hg, hg, if_pos rfl]
    by_cases h : k = name
    · simp only [h, if_true]; rfl
    · simp only [h, if_false]

theorem group_joint {F : Type} [Field F] (eps : F) (ms : List (String × String)) (t : Tables F)
    (g : List (String × List (String × F)) × List (String × F)) (k : String) :
    getOr (ms.foldl (fun g y => groupSym eps t y.1 g y.2) g).1 k [] =
      addList eps ((ms.filter fun y => y.1 = k).flatMap fun y => getOr t.joint y.2 []) (getOr g.1 k []) := by
  induction ms generalizing g with
  | nil => rfl
  | cons y ms ih =>
    rw [List.foldl_cons, ih]
    unfold groupSym
    dsimp only
    rw [group_row]
    by_cases h : k = y.1
    · subst h
      rw [if_pos rfl]
      have : (y :: ms).filter (fun z => z.1 = y.1) = y :: ms.filter (fun z => z.1 = y.1) := by simp
      rw [this, List.flatMap_cons]
      unfold addList
      rw [List.foldl_append]
    · rw [if_neg h]
      have : (y :: ms).filter (fun z => z.1 = k) = ms.filter (fun z => z.1 = k) := by
        simp [Ne.symm h]
      rw [this]

theorem groupOf_iff (groups : List (String × List String)) (seen : List String) (hG : Groups groups seen)
    (s k : String) (hs : s ∈ seen) : (k, s) ∈ members groups ↔ groupOf groups s = k := by
  obtain ⟨⟨k', s'⟩, hy, rfl⟩ := List.mem_map.1 (hG.cover s hs)
  have huniq : ∀ a b, (a, s') ∈ members groups → (b, s') ∈ members groups → a = b := by
    intro a b ha hb
    have := List.inj_on_of_nodup_map hG.once ha hb rfl
    exact congrArg Prod.fst this
  have hex : ∃ y, (members groups).find? (fun y => y.2 = s') = some y := by
    rw [← Option.isSome_iff_exists, List.find?_isSome]
    exact ⟨_, hy, by simp⟩
  obtain ⟨⟨a, b⟩, hf⟩ := hex
  have h1 := List.find?_some hf
  have h2 := List.mem_of_find?_eq_some hf
  simp only [decide_eq_true_eq] at h1
  subst h1
  have h3 : groupOf groups b = a := by unfold groupOf; rw [hf]; rfl
  dsimp only
  rw [h3]
  constructor
  · intro h; exact huniq _ _ h2 h
  · rintro rfl; exact h2

theorem sum_ite_count {α : Type} [BEq α] [LawfulBEq α] [DecidableEq α] (l : List α) (a : α) :
    (l.map fun y => if y = a then 1 else 0).sum = l.count a := by
  induction l with
  | nil => rfl
  | cons y l ih =>
    rw [List.map_cons, List.sum_cons, ih, List.count_cons]
    by_cases h : y = a
    · simp [h]; omega
    · simp [h]

/-- The counts of the groups are the sums of those of their members. -/
theorem group_count {α : Type} (ms : List (String × String)) (hn : (ms.map Prod.snd).Nodup) (k : String)
    (ps : List α) (f : α → String) (P : α → Prop) [DecidablePred P] :
    (ms.map fun y => if y.1 = k then ps.countP (fun x => f x = y.2 ∧ P x) else 0).sum =
      ps.countP fun x => (k, f x) ∈ ms ∧ P x := by
  induction ps with
  | nil => simp
  | cons x ps ih =>
    have h1 : (ms.map fun y => if y.1 = k then (x :: ps).countP (fun x => f x = y.2 ∧ P x) else 0) =
        ms.map fun y => (if y.1 = k then ps.countP (fun x => f x = y.2 ∧ P x) else 0) +
          if y = (k, f x) ∧ P x then 1 else 0 := by
      refine List.map_congr_left fun y _ => ?_
      obtain ⟨a, b⟩ := y
      by_cases ha : a = k
      · subst ha
        simp only [if_true, List.countP_cons, Prod.mk.injEq, true_and, decide_eq_true_eq]
        congr 1
        by_cases hb : f x = b
        · simp [hb]
        · simp [hb, Ne.symm hb]
      · simp [ha]
    rw [h1, List.sum_map_add, ih, List.countP_cons]
    congr 1
    have hnd : ms.Nodup := List.Nodup.of_map _ hn
    by_cases hP : P x
    · simp only [hP, and_true, decide_eq_true_eq]
      rw [sum_ite_count]
      by_cases hm : (k, f x) ∈ ms
      · rw [if_pos hm, List.count_eq_one_of_mem hnd hm]
      · rw [if_neg hm, List.count_eq_zero_of_not_mem hm]
    · simp [hP]

/-- Limit of a dictionary built by additions. -/
theorem addList_tends (l : ℝ → List (String × ℝ)) (ks : List String)
    (hk : ∀ e k, k ∈ (l e).map Prod.fst ↔ k ∈ ks)
    (hv : ∀ k ∈ ks, Tendsto (fun e => ((l e).map fun x => if x.1 = k then x.2 else 0).sum) (𝓝 0)
      (𝓝 (ks.count k : ℝ))) : DictTends (fun e => addList e (l e) []) ks where
  nodup := fun e => addList_nodup e (l e) [] (by simp)
  keys := fun e => by
    rw [addList_finset]
    ext k
    rw [List.mem_toFinset, List.mem_toFinset, hk]
  vals := fun k hk' => by
    have : ∀ e, ((addList e (l e) []).lookup k).getD default =
        e + ((l e).map fun x => if x.1 = k then x.2 else 0).sum := by
      intro e
      rw [addList_lookup, if_pos ((hk e k).2 hk')]
      simp
    simp only [this]
    have h := (tendsto_id (α := ℝ) (x := 𝓝 0)).add (hv k hk')
    rw [zero_add] at h
    exact h

theorem list_sum_tendsto {α : Type} (l : List α) (f : ℝ → α → ℝ) (g : α → ℝ)
    (h : ∀ x ∈ l, Tendsto (fun e => f e x) (𝓝 0) (𝓝 (g x))) :
    Tendsto (fun e => (l.map (f e)).sum) (𝓝 0) (𝓝 (l.map g).sum) := by
  induction l with
  | nil => simp
  | cons x l ih =>
    simp only [List.map_cons, List.sum_cons]
    exact (h x List.mem_cons_self).add (ih fun y hy => h y (List.mem_cons_of_mem _ hy))

theorem addAll_getD_tends (ks : List String) (k : String) :
    Tendsto (fun e : ℝ => ((addAll e ks []).lookup k).getD e) (𝓝 0) (𝓝 (ks.count k : ℝ)) := by
  simp only [addAll_lookup]
  by_cases hk : k ∈ ks
  · simp only [hk, if_true]
    simpa using entry_tendsto (ks.count k : ℝ)
  · simp only [hk, if_false, List.count_eq_zero_of_not_mem hk]
    have h : Tendsto (fun e : ℝ => e) (𝓝 0) (𝓝 0) := tendsto_id
    simpa using h

theorem row_value (e : ℝ) (ks : List String) (k : String) :
    ((addAll e ks []).map fun x => if x.1 = k then x.2 else 0).sum = if k ∈ ks then e + (ks.count k : ℝ) else 0 := by
  rw [dict_sum (addAll e ks []) (addAll_nodup e ks [] (by simp)) fun a v => if a = k then v else 0,
    addAll_finset, Finset.sum_ite_eq']
  simp only [List.mem_toFinset, addAll_lookup]
  by_cases hk : k ∈ ks <;> simp [hk]

theorem group_tend (groups : List (String × List String)) (ps : List (String × String))
    (hG : Groups groups (ps.map Prod.fst)) :
    TablesTend (fun e => groupTables e groups (ps.foldl (frameStep e) ⟨[], [], []⟩))
      (ps.map fun x => (groupOf groups x.1, x.2)) := by
  have hgo : ∀ x ∈ ps, ∀ k, (k, x.1) ∈ members groups ↔ groupOf groups x.1 = k := fun x hx k =>
    groupOf_iff groups _ hG x.1 k (List.mem_map_of_mem hx)
  refine ⟨?_, ?_, ?_⟩
  · have e1 : ∀ e : ℝ, (groupTables e groups (ps.foldl (frameStep e) ⟨[], [], []⟩)).ref =
        addList e ((members groups).map fun y => (y.1, ((addAll e (ps.map Prod.fst) []).lookup y.2).getD e)) [] := by
      intro e
      unfold groupTables
      dsimp only
      rw [group_fold, group_ref]
      simp only [frames_ref, getOr_lookup]
    simp only [e1]
    refine addList_tends _ _ ?_ ?_
    · intro e k
      rw [List.map_map]
      constructor
      · intro hk
        obtain ⟨y, hy, rfl⟩ := List.mem_map.1 hk
        obtain ⟨x, hx, hy'⟩ := List.mem_flatMap.1 hy
        obtain ⟨s, hs, rfl⟩ := List.mem_map.1 hy'
        obtain ⟨s', hs', hs2⟩ := hG.used x hx
        obtain ⟨p, hp, rfl⟩ := List.mem_map.1 hs2
        refine List.mem_map.2 ⟨(groupOf groups p.1, p.2), List.mem_map.2 ⟨p, hp, rfl⟩, ?_⟩
        exact (hgo p hp x.1).1 (List.mem_flatMap.2 ⟨x, hx, List.mem_map.2 ⟨p.1, hs', rfl⟩⟩)
      · intro hk
        rw [List.map_map] at hk
        obtain ⟨p, hp, rfl⟩ := List.mem_map.1 hk
        exact List.mem_map.2 ⟨(groupOf groups p.1, p.1), (hgo p hp _).2 rfl, rfl⟩
    · intro k _
      simp only [List.map_map]
      have h1 := list_sum_tendsto (members groups)
        (fun e y => if y.1 = k then ((addAll e (ps.map Prod.fst) []).lookup y.2).getD e else 0)
        (fun y => if y.1 = k then ((ps.map Prod.fst).count y.2 : ℝ) else 0) (by
          intro y _
          by_cases h : y.1 = k
          · simp only [h, if_true]; exact addAll_getD_tends _ _
          · simp only [h, if_false]; exact tendsto_const_nhds)
      have h2 : ((members groups).map fun y => if y.1 = k then ((ps.map Prod.fst).count y.2 : ℝ) else 0).sum =
          ((((ps.map fun x => (groupOf groups x.1, x.2)).map Prod.fst).count k : ℕ) : ℝ) := by
        have h3 := group_count (members groups) hG.once k ps Prod.fst fun _ => True
        have h4 : (((ps.map fun x => (groupOf groups x.1, x.2)).map Prod.fst).count k) =
            ps.countP fun x => (k, x.1) ∈ members groups ∧ True := by
          rw [List.map_map, List.count_eq_countP, List.countP_map]
          refine List.countP_congr fun x hx => ?_
          simp only [Function.comp, beq_iff_eq, and_true, decide_eq_true_eq]
          exact (hgo x hx k).symm
        rw [h4, ← h3, Nat.cast_list_sum, List.map_map]
        congr 1
        refine List.map_congr_left fun y _ => ?_
        simp only [Function.comp, and_true]
        split
        · rw [List.count_eq_countP, List.countP_map]
          congr 1
        · simp
      rw [h2, List.map_map] at h1
      exact h1
  · have e1 : ∀ e : ℝ, (groupTables e groups (ps.foldl (frameStep e) ⟨[], [], []⟩)).hyp =
        addAll e (ps.map Prod.snd) [] := by
      intro e
      unfold groupTables
      dsimp only
      rw [frames_hyp]
    simp only [e1]
    rw [List.map_map]
    exact addAll_tends _
  · intro k hk
    have e1 : ∀ e : ℝ, getOr (groupTables e groups (ps.foldl (frameStep e) ⟨[], [], []⟩)).joint k [] =
        addList e (((members groups).filter fun y => y.1 = k).flatMap fun y => addAll e (withRef ps y.2) []) [] := by
      intro e
      unfold groupTables
      dsimp only
      rw [group_fold, group_joint]
      simp only [frames_joint]
      rfl
    simp only [e1]
    refine addList_tends _ _ ?_ ?_
    · intro e h
      rw [List.map_flatMap, List.mem_flatMap]
      constructor
      · rintro ⟨⟨a, s⟩, hyf, hh⟩
        rw [← List.mem_toFinset, addAll_finset, List.mem_toFinset] at hh
        obtain ⟨hy, ha⟩ := List.mem_filter.1 hyf
        have ha : a = k := by simpa using ha
        subst ha
        unfold withRef at hh ⊢
        obtain ⟨p, hpf, rfl⟩ := List.mem_map.1 hh
        obtain ⟨hp, hps⟩ := List.mem_filter.1 hpf
        have hps : p.1 = s := by simpa using hps
        subst hps
        refine List.mem_map.2 ⟨(groupOf groups p.1, p.2), List.mem_filter.2 ⟨List.mem_map.2 ⟨p, hp, rfl⟩, ?_⟩, rfl⟩
        simpa using (hgo p hp a).1 hy
      · intro hh
        unfold withRef at hh
        obtain ⟨q, hq, rfl⟩ := List.mem_map.1 hh
        obtain ⟨hq, hqk⟩ := List.mem_filter.1 hq
        obtain ⟨p, hp, rfl⟩ := List.mem_map.1 hq
        have hqk : groupOf groups p.1 = k := by simpa using hqk
        refine ⟨(k, p.1), List.mem_filter.2 ⟨(hgo p hp k).2 hqk, by simp⟩, ?_⟩
        rw [← List.mem_toFinset, addAll_finset, List.mem_toFinset]
        exact List.mem_map.2 ⟨p, List.mem_filter.2 ⟨hp, by simp⟩, rfl⟩
    · intro h _
      have e2 : ∀ e : ℝ, ((((members groups).filter fun y => y.1 = k).flatMap fun y =>
          addAll e (withRef ps y.2) []).map fun x => if x.1 = h then x.2 else 0).sum =
          ((members groups).map fun y => if y.1 = k then
            (if h ∈ withRef ps y.2 then e + ((withRef ps y.2).count h : ℝ) else 0) else 0).sum := by
        intro e
        generalize members groups = ms
        induction ms with
        | nil => rfl
        | cons y ms ih =>
          by_cases hy : y.1 = k
          · simp only [List.filter_cons, hy, decide_true, if_true, List.flatMap_cons, List.map_append,
              List.sum_append, row_value, List.map_cons, List.sum_cons, ih]
          · simp only [List.filter_cons, hy, decide_false, Bool.false_eq_true, if_false, List.map_cons,
              List.sum_cons, zero_add, ih]
      simp only [e2]
      have h1 := list_sum_tendsto (members groups)
        (fun e y => if y.1 = k then
            (if h ∈ withRef ps y.2 then e + ((withRef ps y.2).count h : ℝ) else 0) else 0)
        (fun y => if y.1 = k then ((withRef ps y.2).count h : ℝ) else 0) (by
          intro y _
          by_cases hy : y.1 = k
          · simp only [hy, if_true]
            by_cases hm : h ∈ withRef ps y.2
            · simp only [hm, if_true]; exact entry_tendsto _
            · simp only [hm, if_false, List.count_eq_zero_of_not_mem hm, Nat.cast_zero]
              exact tendsto_const_nhds
          · simp only [hy, if_false]; exact tendsto_const_nhds)
      have h2 : ((members groups).map fun y => if y.1 = k then ((withRef ps y.2).count h : ℝ) else 0).sum =
          (((withRef (ps.map fun x => (groupOf groups x.1, x.2)) k).count h : ℕ) : ℝ) := by
        have h3 := group_count (members groups) hG.once k ps Prod.fst fun x => x.2 = h
        have h4 : (withRef (ps.map fun x => (groupOf groups x.1, x.2)) k).count h =
            ps.countP fun x => (k, x.1) ∈ members groups ∧ x.2 = h := by
          rw [withRef_count, List.count_eq_countP, List.countP_map]
          refine List.countP_congr fun x hx => ?_
          simp only [Function.comp, beq_iff_eq, Prod.mk.injEq, decide_eq_true_eq]
          rw [hgo x hx k]
        rw [h4, ← h3, Nat.cast_list_sum, List.map_map]
        congr 1
        refine List.map_congr_left fun y _ => ?_
        simp only [Function.comp]
        split
        · rw [withRef_count, List.count_eq_countP]
          congr 1
          refine List.countP_congr fun x _ => ?_
          obtain ⟨a, b⟩ := x
          simp
        · simp
      rw [h2] at h1
      exact h1

end groups

/-- The numbers printed by `mutual-information.py`. -/
theorem mi_tendsto (t : ℝ → Tables ℝ) (qs : List (String × String)) (hne : qs ≠ []) (h : TablesTend t qs) :
    Tendsto (fun e => miBits (t e)) (𝓝 0) (𝓝 (mutualInfo (qs.map Prod.fst).toFinset (qs.map Prod.snd).toFinset
      fun r h => (pairCount qs r h : ℝ))) ∧
    Tendsto (fun e => entropyBits (normalised (t e).ref)) (𝓝 0)
      (𝓝 (entropy2 (qs.map Prod.fst).toFinset (freq (qs.map Prod.fst)))) := by
  have hl : 0 < Real.log 2 := Real.log_pos (by norm_num)
  have n1 : qs.map Prod.fst ≠ [] := by simpa using hne
  have n2 : qs.map Prod.snd ≠ [] := by simpa using hne
  constructor
  · have e : mutualInfo (qs.map Prod.fst).toFinset (qs.map Prod.snd).toFinset
        (fun r h => (pairCount qs r h : ℝ)) =
        (∑ k ∈ (qs.map Prod.snd).toFinset, Real.negMulLog (freq (qs.map Prod.snd) k)) / Real.log 2 -
        (∑ r ∈ (qs.map Prod.fst).toFinset, freq (qs.map Prod.fst) r *
          ∑ h ∈ (withRef qs r).toFinset, Real.negMulLog (freq (withRef qs r) h)) / Real.log 2 := by
      have h1 := mutualInfo_eq (pairs_good qs hne)
      rw [condEnt_pairs] at h1
      simp only [margY_freq] at h1
      field_simp
      exact h1
    rw [e]
    unfold miBits entropyBits condEntropyBits
    refine ((h.hyp.entropy n2).div_const _).sub (Tendsto.div_const ?_ _)
    refine h.ref.sum n1 (fun e k v => v * ((normalised (getOr (t e).joint k [])).map
      fun p => - p.2 * Real.log p.2).sum) _ fun r hr v hv => ?_
    exact hv.mul ((h.joint r hr).entropy (withRef_ne qs r hr))
  · exact (h.ref.entropy n1).div_const _

end Verif.Eval
