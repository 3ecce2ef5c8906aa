import Verif.Lemmas.RescaleMix

/-!
# Corresponding models: trainings of mixtures, HMMs and phone loops
-/

namespace Verif.VB

open Real Verif.Dists Verif.DistSpec Verif.Mixture Verif.Props Verif.Spec Verif.PhoneLoop

variable {X P : Type}

theorem seqFin_inv {α : Type} {M : ℕ} (f : Fin M → Except Err α) (g : Fin M → α) (h : seqFin f = .ok g) :
    ∀ m, f m = .ok (g m) := by
  induction M with
  | zero => exact fun m => m.elim0
  | succ M ih =>
    simp only [seqFin] at h
    cases e0 : f 0 with
    | error e => rw [e0] at h; cases h
    | ok a =>
      cases e1 : seqFin fun i => f i.succ with
      | error e => rw [e0, e1] at h; cases h
      | ok r =>
        rw [e0, e1] at h
        have hg : Fin.cons a r = g := Except.ok.inj h
        subst hg
        intro m
        refine Fin.cases ?_ (fun i => ?_) m
        · exact e0
        · exact ih _ r e1 i

/-! ## Mixtures -/

section
variable {K : ℕ} {inner inner' : SetModel X K} {V : inner.State → Prop} {V' : inner'.State → Prop} {XV : X → Prop} {f : X → X}
  {F : inner.State → inner'.State} {c : ℝ} {σ : Equiv.Perm (Fin K)}

theorem mixOut_corr (hK : 1 ≤ K) (hl : Lawful inner V XV) (h : Corresponds inner inner' V V' XV f F c σ)
    (st : MixState inner) (hv : MixValid inner V st) (x : X) (hx : XV x) :
    ∃ o : LocalOut K, mixOut inner st x = .ok o ∧ (∀ k, 0 ≤ o.resps k) ∧
      mixOut inner' (MixState.tr F σ st) (f x) = .ok ⟨fun k => o.resps (σ k), o.value + c⟩ := by
  obtain ⟨v, e⟩ := hl.llh_ok st.comps x hv.2 hx
  refine ⟨mixLocal (lwOf K st.weights.post) v, ?_, (C44_responsibilities hK _ _).1.1, ?_⟩
  · unfold mixOut
    rw [logWeights_eq _ hv.1.2.1, e]
    rfl
  · unfold mixOut
    show (logWeights K (permW σ st.weights.post) >>= _) = _
    rw [logWeights_eq _ (permW_dirValid σ _ hv.1.2).1]
    show (inner'.llh (F st.comps) (f x) >>= _) = _
    rw [h.llh _ _ _ hv.2 hx e]
    show Except.ok _ = _
    rw [← mixLocal_perm hK]
    congr 2
    funext k
    exact lwOf_permW _ _ hv.1.2.1 k

theorem mixValid_tr (hK : 1 ≤ K) (h : Corresponds inner inner' V V' XV f F c σ)
    (st : MixState inner) (hv : MixValid inner V st) : MixValid inner' V' (MixState.tr F σ st) :=
  ⟨(dir_corresponds hK σ).tr_valid _ hv.1, h.valid _ hv.2⟩

theorem mixElbo_corr (hK : 1 ≤ K) (hl : Lawful inner V XV) (h : Corresponds inner inner' V V' XV f F c σ)
    (st : MixState inner) (hv : MixValid inner V st) (data : List X) (hd : ∀ x ∈ data, XV x) (hne : data ≠ [])
    (datasize : ℤ) :
    ∃ g, mixElbo inner st data datasize = .ok g ∧ mixElbo inner' (MixState.tr F σ st) (data.map f) datasize =
      .ok (g + (if datasize ≤ 0 then (data.length : ℤ) else datasize : ℤ) * c) := by
  have hlen : (data.length : ℝ) ≠ 0 := by
    have := List.length_pos_iff.2 hne
    exact_mod_cast this.ne'
  have : Nonempty (LocalOut K) := ⟨⟨fun _ => 0, 0⟩⟩
  choose! o ho _ ho' using fun x (hx : XV x) => mixOut_corr hK hl h st hv x hx
  obtain ⟨k, hk, _⟩ := hl.kl_ok st.comps hv.2
  have hkl : mixKl inner st = .ok (k + (dirConj hK).D st.weights.post st.weights.prior) := by
    unfold mixKl
    rw [hk, (dirConj hK).paramKl_eq _ hv.1]
    rfl
  have hkl' : mixKl inner' (MixState.tr F σ st) = mixKl inner st := by
    unfold mixKl
    show (inner'.kl (F st.comps) >>= _) = _
    rw [h.kl _ hv.2]
    congr 1
    funext k
    show ((dirFam K).kl _ _ >>= _) = ((dirFam K).kl _ _ >>= _)
    congr 1
    exact (dir_corresponds hK σ).kl _ _ hv.1.2 hv.1.1
  set N : ℝ := ((if datasize ≤ 0 then (data.length : ℤ) else datasize : ℤ) : ℝ) with hN
  have hs : batchScale data.length datasize = .ok (N / data.length) := by
    unfold batchScale
    rw [if_neg (by have := List.length_pos_iff.2 hne; omega)]
  refine ⟨N / data.length * ((data.map o).map fun o => o.value).sum -
    (k + (dirConj hK).D st.weights.post st.weights.prior), ?_, ?_⟩
  · unfold mixElbo
    rw [hs, ok_bind, mapM_ok_map _ _ data fun x hx => ho x (hd x hx), ok_bind, hkl]
    rfl
  · unfold mixElbo
    rw [List.length_map, hs, ok_bind]
    have hm : (data.map f).mapM (mixOut inner' (MixState.tr F σ st)) =
        .ok (data.map fun x => (⟨fun k => (o x).resps (σ k), (o x).value + c⟩ : LocalOut K)) := by
      rw [mapM_ok_iff, List.forall₂_map_left_iff, List.forall₂_map_right_iff, List.forall₂_same]
      exact fun x hx => ho' x (hd x hx)
    rw [hm, ok_bind, hkl', hkl]
    show Except.ok _ = _
    congr 1
    rw [List.map_map, List.map_map]
    have : (data.map ((fun o : LocalOut K => o.value) ∘ fun x =>
        (⟨fun k => (o x).resps (σ k), (o x).value + c⟩ : LocalOut K))).sum =
        (data.map ((fun o : LocalOut K => o.value) ∘ o)).sum + data.length * c := by
      have : (data.map fun x => (o x).value + c).sum = (data.map fun x => (o x).value).sum + (data.map fun _ => c).sum :=
        List.sum_map_add
      simp only [List.map_const', List.sum_replicate, nsmul_eq_mul] at this
      exact this
    rw [this]
    field_simp
    ring

theorem mixStep_corr (hK : 1 ≤ K) (hl : Lawful inner V XV) (h : Corresponds inner inner' V V' XV f F c σ)
    (st : MixState inner) (hv : MixValid inner V st) (data : List X) (hd : ∀ x ∈ data, XV x) (hne : data ≠ [])
    (datasize : ℤ) (l : ℝ) (h0 : 0 < l) (h1 : l ≤ 1) :
    ∃ st', mixStep inner st data datasize l = .ok st' ∧ MixValid inner V st' ∧
      mixStep inner' (MixState.tr F σ st) (data.map f) datasize l = .ok (MixState.tr F σ st') := by
  obtain ⟨scale, hs, hspos⟩ := batchScale_pos (List.length_pos_iff.2 hne) datasize
  have : Nonempty (LocalOut K) := ⟨⟨fun _ => 0, 0⟩⟩
  choose! o ho ho0 ho' using fun x (hx : XV x) => mixOut_corr hK hl h st hv x hx
  have hrow : ∀ r ∈ data.map (fun x => ((1 : ℝ), List.ofFn (o x).resps)), 0 ≤ r.1 ∧ CountsValid K r.2 := by
    intro r hr
    obtain ⟨x, hx, rfl⟩ := List.mem_map.1 hr
    refine ⟨zero_le_one, by simp, ?_⟩
    intro v hv
    rw [List.mem_ofFn] at hv
    obtain ⟨k, rfl⟩ := hv
    exact ho0 x (hd x hx) k
  obtain ⟨w, e1, v1, -, -⟩ := (dirConj hK).gain st.weights (data.map fun x => ((1 : ℝ), List.ofFn (o x).resps)) scale l hv.1
    hrow hspos.le h0 h1
  have hrows : ∀ r ∈ data.map (fun x => (x, (o x).resps)), XV r.1 ∧ ∀ k, 0 ≤ r.2 k := by
    intro r hr
    obtain ⟨x, hx, rfl⟩ := List.mem_map.1 hr
    exact ⟨hd x hx, ho0 x (hd x hx)⟩
  obtain ⟨s', s1, s2, -⟩ := hl.step_ok st.comps (data.map fun x => (x, (o x).resps)) scale l hv.2 hrows hspos.le h0 h1
  refine ⟨⟨⟨st.weights.prior, w⟩, s'⟩, ?_, ⟨⟨hv.1.1, v1⟩, s2⟩, ?_⟩
  · unfold mixStep
    rw [hs, ok_bind, mapM_ok_map _ _ data fun x hx => ho x (hd x hx), ok_bind]
    have hw : (dirFam K).update st.weights (vsmul scale (mixCatStats ((data.map o).map fun o => o.resps))) l =
        .ok ⟨st.weights.prior, w⟩ := by
      rw [← e1]
      unfold mixCatStats Conj.acc
      rw [List.map_map, List.map_map, List.map_map]
      rfl
    rw [hw, ok_bind, zipWith_map_right, s1]
    rfl
  · unfold mixStep
    rw [List.length_map, hs, ok_bind]
    have hm : (data.map f).mapM (mixOut inner' (MixState.tr F σ st)) =
        .ok (data.map fun x => (⟨fun k => (o x).resps (σ k), (o x).value + c⟩ : LocalOut K)) := by
      rw [mapM_ok_iff, List.forall₂_map_left_iff, List.forall₂_map_right_iff, List.forall₂_same]
      exact fun x hx => ho' x (hd x hx)
    rw [hm, ok_bind]
    have hw : (dirFam K).update (MixState.tr F σ st).weights (vsmul scale (mixCatStats ((data.map fun x =>
        (⟨fun k => (o x).resps (σ k), (o x).value + c⟩ : LocalOut K)).map fun o => o.resps))) l =
        .ok ⟨permW σ st.weights.prior, permW σ w⟩ := by
      have := (dir_corresponds hK σ).update st.weights _ scale l _ hv.1 hrow hspos.le h0 h1 e1
      rw [← this]
      unfold mixCatStats MixState.tr CParam.tr
      rw [List.map_map, List.map_map, List.map_map]
      congr 3
      apply List.map_congr_left
      intro x _
      simp only [Function.comp]
      congr 1
      show catStats _ = catStats _
      rw [permW_ofFn]
      rfl
    rw [hw, ok_bind]
    have hz : List.zipWith (fun x o => (x, LocalOut.resps o)) (data.map f) (data.map fun x =>
        (⟨fun k => (o x).resps (σ k), (o x).value + c⟩ : LocalOut K)) =
        (data.map fun x => (x, (o x).resps)).map fun r => (f r.1, r.2 ∘ σ) := by
      rw [List.map_map]
      clear hne hd hs hrow hrows e1 s1 hm hw
      induction data with
      | nil => rfl
      | cons x data ih =>
        simp only [List.map_cons, List.zipWith_cons_cons, ih]
        rfl
    rw [hz]
    show (inner'.step (F st.comps) _ scale l >>= _) = _
    rw [h.step _ _ _ _ _ hv.2 hrows hspos.le h0 h1 s1]
    rfl

theorem mixTrain_corr (hK : 1 ≤ K) (hl : Lawful inner V XV) (h : Corresponds inner inner' V V' XV f F c σ)
    (data : List X) (hd : ∀ x ∈ data, XV x) (hne : data ≠ []) (datasize : ℤ) (ls : List ℝ) :
    ∀ st : MixState inner, MixValid inner V st → (∀ l ∈ ls, 0 < l ∧ l ≤ 1) →
    ∃ st', mixTrain inner data datasize st ls = .ok st' ∧ MixValid inner V st' ∧
      mixTrain inner' (data.map f) datasize (MixState.tr F σ st) ls = .ok (MixState.tr F σ st') := by
  induction ls with
  | nil => exact fun st hv _ => ⟨st, rfl, hv, rfl⟩
  | cons l ls ih =>
    intro st hv hls
    obtain ⟨st1, e1, v1, e1'⟩ := mixStep_corr hK hl h st hv data hd hne datasize l (hls l (by simp)).1 (hls l (by simp)).2
    obtain ⟨st2, e2, v2, e2'⟩ := ih st1 v1 fun l hl => hls l (by simp [hl])
    refine ⟨st2, ?_, v2, ?_⟩
    · simp only [mixTrain, e1]; exact e2
    · simp only [mixTrain, e1']; exact e2'

end

/-! ## Inference on a graph -/

theorem lexp_add_real (x : LogR) (k : ℝ) : lexp (x + (k : LogR)) = lexp x * exp k := by
  induction x using WithBot.recBotCoe with
  | bot => simp [lexp]
  | coe x =>
    rw [← WithBot.coe_add, lexp_coe, lexp_coe, exp_add]

theorem llog_mul_exp (y k : ℝ) : llog (y * exp k) = llog y + (k : LogR) := by
  unfold llog
  by_cases h : y = 0
  · rw [if_pos h, if_pos (by rw [h, zero_mul]), WithBot.bot_add]
  · rw [if_neg h, if_neg (mul_ne_zero h (exp_pos _).ne'), log_mul h (exp_pos _).ne', log_exp, WithBot.coe_add]

theorem lse_add_real {n : ℕ} (v : Fin n → LogR) (k : ℝ) : lse (fun i => v i + (k : LogR)) = lse v + (k : LogR) := by
  unfold lse
  rw [← llog_mul_exp, Finset.sum_mul]
  simp only [lexp_add_real]

theorem lse_perm {n : ℕ} (σ : Equiv.Perm (Fin n)) (v : Fin n → LogR) : lse (fun i => v (σ i)) = lse v := by
  unfold lse
  rw [Equiv.sum_comp σ fun i => lexp (v i)]

theorem expSub_add_real (x y : LogR) (k : ℝ) : expSub (x + (k : LogR)) (y + (k : LogR)) = expSub x y := by
  induction y using WithBot.recBotCoe with
  | bot => cases x <;> rfl
  | coe y =>
    induction x using WithBot.recBotCoe with
    | bot => rfl
    | coe x =>
      rw [← WithBot.coe_add, ← WithBot.coe_add]
      show some _ = some _
      congr 2
      ring

section
variable {K n : ℕ} (σ : Equiv.Perm (Fin K)) (g : CGraph K) (v : Fin (n + 1) → Frame K) (h : Fin (n + 1) → ℝ)

/-- The scores of a renumbered graph, shifted by `h t` at frame `t`. -/
def shiftScores (t : Fin (n + 1)) : Frame K := fun s => v t (σ s) + ((h t : ℝ) : LogR)

/-- The total shift up to a frame. -/
noncomputable def shiftA (t : Fin (n + 1)) : ℝ :=
  Fin.induction (motive := fun _ => ℝ) (h 0) (fun i p => h i.succ + p) t

/-- The total shift after a frame. -/
noncomputable def shiftB (t : Fin (n + 1)) : ℝ :=
  Fin.reverseInduction (motive := fun _ => ℝ) 0 (fun i p => h i.succ + p) t

theorem logAlphas_shift (t : Fin (n + 1)) (s : Fin K) :
    logAlphas (permGraph σ g) (shiftScores σ v h) t s = logAlphas g v t (σ s) + ((shiftA h t : ℝ) : LogR) := by
  induction t using Fin.induction generalizing s with
  | zero =>
    show v 0 (σ s) + ((h 0 : ℝ) : LogR) + g.init (σ s) = v 0 (σ s) + g.init (σ s) + ((h 0 : ℝ) : LogR)
    rw [add_right_comm]
  | succ i ih =>
    have e1 : logAlphas (permGraph σ g) (shiftScores σ v h) i.succ s = shiftScores σ v h i.succ s +
        lse (fun j => logAlphas (permGraph σ g) (shiftScores σ v h) i.castSucc j + g.trans (σ j) (σ s)) := by
      unfold logAlphas
      rw [Fin.induction_succ]
      rfl
    have e2 : logAlphas g v i.succ (σ s) = v i.succ (σ s) +
        lse (fun j => logAlphas g v i.castSucc j + g.trans j (σ s)) := by
      unfold logAlphas
      rw [Fin.induction_succ]
    have e3 : shiftA h i.succ = h i.succ + shiftA h i.castSucc := by
      unfold shiftA
      rw [Fin.induction_succ]
    rw [e1, e2, e3]
    have e4 : (fun j => logAlphas (permGraph σ g) (shiftScores σ v h) i.castSucc j + g.trans (σ j) (σ s)) =
        fun j => (fun j => (fun j => logAlphas g v i.castSucc j + g.trans j (σ s)) (σ j)) j +
          ((shiftA h i.castSucc : ℝ) : LogR) := by
      funext j
      rw [ih]
      exact add_right_comm _ _ _
    rw [e4, lse_add_real, lse_perm σ fun j => logAlphas g v i.castSucc j + g.trans j (σ s), WithBot.coe_add]
    show v i.succ (σ s) + ((h i.succ : ℝ) : LogR) + _ = _
    ac_rfl

theorem logBetas_shift (t : Fin (n + 1)) (s : Fin K) :
    logBetas (permGraph σ g) (shiftScores σ v h) t s = logBetas g v t (σ s) + ((shiftB h t : ℝ) : LogR) := by
  induction t using Fin.reverseInduction generalizing s with
  | last =>
    unfold logBetas shiftB
    rw [Fin.reverseInduction_last, Fin.reverseInduction_last, Fin.reverseInduction_last]
    show g.final (σ s) = g.final (σ s) + ((0 : ℝ) : LogR)
    rw [WithBot.coe_zero, add_zero]
  | cast i ih =>
    have e1 : logBetas (permGraph σ g) (shiftScores σ v h) i.castSucc s =
        lse (fun j => g.trans (σ s) (σ j) + shiftScores σ v h i.succ j +
          logBetas (permGraph σ g) (shiftScores σ v h) i.succ j) := by
      unfold logBetas
      rw [Fin.reverseInduction_castSucc]
      rfl
    have e2 : logBetas g v i.castSucc (σ s) =
        lse (fun j => g.trans (σ s) j + v i.succ j + logBetas g v i.succ j) := by
      unfold logBetas
      rw [Fin.reverseInduction_castSucc]
    have e3 : shiftB h i.castSucc = h i.succ + shiftB h i.succ := by
      unfold shiftB
      rw [Fin.reverseInduction_castSucc]
    rw [e1, e2, e3]
    have e4 : (fun j => g.trans (σ s) (σ j) + shiftScores σ v h i.succ j +
          logBetas (permGraph σ g) (shiftScores σ v h) i.succ j) =
        fun j => (fun j => (fun j => g.trans (σ s) j + v i.succ j + logBetas g v i.succ j) (σ j)) j +
          ((h i.succ + shiftB h i.succ : ℝ) : LogR) := by
      funext j
      rw [ih, WithBot.coe_add]
      unfold shiftScores
      dsimp only
      ac_rfl
    rw [e4, lse_add_real, lse_perm σ fun j => g.trans (σ s) j + v i.succ j + logBetas g v i.succ j]

theorem statePosts_shift (t : Fin (n + 1)) (s : Fin K) :
    statePosts (permGraph σ g) (shiftScores σ v h) t s = statePosts g v t (σ s) := by
  have e : ∀ s, logAlphas (permGraph σ g) (shiftScores σ v h) t s + logBetas (permGraph σ g) (shiftScores σ v h) t s =
      logAlphas g v t (σ s) + logBetas g v t (σ s) + ((shiftA h t + shiftB h t : ℝ) : LogR) := by
    intro s
    rw [logAlphas_shift, logBetas_shift, WithBot.coe_add]
    ac_rfl
  unfold statePosts lognorm
  simp only [e]
  rw [lse_add_real, lse_perm σ fun s => logAlphas g v t s + logBetas g v t s, expSub_add_real]

theorem transPosts_shift (i : Fin n) (s d : Fin K) :
    transPosts (permGraph σ g) (shiftScores σ v h) i s d = transPosts g v i (σ s) (σ d) := by
  have e : ∀ s d, logXi (permGraph σ g) (shiftScores σ v h) i s d = logXi g v i (σ s) (σ d) +
      ((shiftA h i.castSucc + h i.succ + shiftB h i.succ : ℝ) : LogR) := by
    intro s d
    unfold logXi
    rw [logAlphas_shift, logBetas_shift, WithBot.coe_add, WithBot.coe_add]
    show _ + g.trans (σ s) (σ d) + (v i.succ (σ d) + _ + _) = _
    ac_rfl
  unfold transPosts xiNorm
  simp only [e]
  have e2 : ∑ s, ∑ d, lexp (logXi g v i (σ s) (σ d) +
      ((shiftA h i.castSucc + h i.succ + shiftB h i.succ : ℝ) : LogR)) =
      (∑ s, ∑ d, lexp (logXi g v i s d)) * exp (shiftA h i.castSucc + h i.succ + shiftB h i.succ) := by
    rw [← Equiv.sum_comp σ fun s => ∑ d, lexp (logXi g v i s d), Finset.sum_mul]
    refine Finset.sum_congr rfl fun s _ => ?_
    rw [← Equiv.sum_comp σ fun d => lexp (logXi g v i (σ s) d), Finset.sum_mul]
    refine Finset.sum_congr rfl fun d _ => ?_
    rw [lexp_add_real]
  rw [e2, llog_mul_exp, expSub_add_real]

end

theorem permGraph_one {S : ℕ} (g : CGraph S) : permGraph 1 g = g := rfl

section
variable {K n : ℕ} (g : CGraph K) (v : Fin (n + 1) → Frame K) (h : Fin (n + 1) → ℝ) (am : Frame K → Fin K)
  (hinv : ∀ (w : Frame K) (k : ℝ), am (fun i => w i + (k : LogR)) = am w)
include hinv

theorem omega_shift (t : Fin (n + 1)) (s : Fin K) :
    omega am g (shiftScores 1 v h) t s = omega am g v t s + ((shiftA h t : ℝ) : LogR) := by
  induction t using Fin.induction generalizing s with
  | zero =>
    show v 0 s + ((h 0 : ℝ) : LogR) + g.init s = v 0 s + g.init s + ((h 0 : ℝ) : LogR)
    rw [add_right_comm]
  | succ i ih =>
    have e1 : omega am g (shiftScores 1 v h) i.succ s = shiftScores 1 v h i.succ s +
        (fun j => omega am g (shiftScores 1 v h) i.castSucc j + g.trans j s)
          (am fun j => omega am g (shiftScores 1 v h) i.castSucc j + g.trans j s) := by
      unfold omega
      rw [Fin.induction_succ]
    have e2 : omega am g v i.succ s = v i.succ s + (fun j => omega am g v i.castSucc j + g.trans j s)
          (am fun j => omega am g v i.castSucc j + g.trans j s) := by
      unfold omega
      rw [Fin.induction_succ]
    have e3 : shiftA h i.succ = h i.succ + shiftA h i.castSucc := by
      unfold shiftA
      rw [Fin.induction_succ]
    have e4 : (fun j => omega am g (shiftScores 1 v h) i.castSucc j + g.trans j s) =
        fun j => (omega am g v i.castSucc j + g.trans j s) + ((shiftA h i.castSucc : ℝ) : LogR) := by
      funext j
      rw [ih]
      exact add_right_comm _ _ _
    rw [e1, e4, hinv, e2, e3, WithBot.coe_add]
    show v i.succ s + ((h i.succ : ℝ) : LogR) + (omega am g v i.castSucc _ + g.trans _ s + _) = _
    ac_rfl

theorem bestPath_shift (t : Fin (n + 1)) : bestPath am g (shiftScores 1 v h) t = bestPath am g v t := by
  induction t using Fin.reverseInduction with
  | last =>
    unfold bestPath
    rw [Fin.reverseInduction_last, Fin.reverseInduction_last]
    have : (fun s => omega am g (shiftScores 1 v h) (Fin.last n) s + g.final s) = fun s =>
        (omega am g v (Fin.last n) s + g.final s) + ((shiftA h (Fin.last n) : ℝ) : LogR) := by
      funext s
      rw [omega_shift g v h am hinv]
      exact add_right_comm _ _ _
    rw [this, hinv]
  | cast i ih =>
    have e1 : bestPath am g (shiftScores 1 v h) i.castSucc =
        backtrack am g (shiftScores 1 v h) i (bestPath am g (shiftScores 1 v h) i.succ) := by
      unfold bestPath
      rw [Fin.reverseInduction_castSucc]
    have e2 : bestPath am g v i.castSucc = backtrack am g v i (bestPath am g v i.succ) := by
      unfold bestPath
      rw [Fin.reverseInduction_castSucc]
    rw [e1, e2, ih]
    unfold backtrack
    have : ∀ s, (fun j => omega am g (shiftScores 1 v h) i.castSucc j + g.trans j s) = fun j =>
        (omega am g v i.castSucc j + g.trans j s) + ((shiftA h i.castSucc : ℝ) : LogR) := by
      intro s
      funext j
      rw [omega_shift g v h am hinv]
      exact add_right_comm _ _ _
    rw [this, hinv]

end

/-! ## HMMs -/

theorem asLog_shift {K n : ℕ} (σ : Equiv.Perm (Fin K)) (v : Fin (n + 1) → Fin K → ℝ) (k : ℝ) :
    asLog (fun t s => v t (σ s) + k) = shiftScores σ (asLog v) fun _ => k := by
  funext t s
  unfold asLog shiftScores
  rw [WithBot.coe_add]

theorem hmmResps_shift {K n : ℕ} (σ : Equiv.Perm (Fin K)) (g : CGraph K) (v : Fin (n + 1) → Fin K → ℝ) (k : ℝ)
    (r : Fin (n + 1) → Fin K → ℝ) (hr : hmmResps g v = .ok r) :
    hmmResps (permGraph σ g) (fun t s => v t (σ s) + k) = .ok fun t s => r t (σ s) := by
  refine seqFin_ok _ _ fun t => seqFin_ok _ _ fun s => ?_
  have := seqFin_inv _ _ (seqFin_inv _ _ hr t) (σ s)
  rw [asLog_shift, statePosts_shift]
  exact this

theorem hmmResps_nonneg {K n : ℕ} (g : CGraph K) (v : Fin (n + 1) → Fin K → ℝ) (r : Fin (n + 1) → Fin K → ℝ)
    (hr : hmmResps g v = .ok r) (t : Fin (n + 1)) (s : Fin K) : 0 ≤ r t s := by
  have e : statePosts g (asLog v) t s = some (r t s) := by
    have := seqFin_inv _ _ (seqFin_inv _ _ hr t) s
    cases h : statePosts g (asLog v) t s with
    | none => rw [h] at this; cases this
    | some q => rw [h] at this; rw [Except.ok.inj this]
  unfold statePosts at e
  generalize logAlphas g (asLog v) t s + logBetas g (asLog v) t s = x at e
  generalize lognorm g (asLog v) t = y at e
  induction y using WithBot.recBotCoe with
  | bot => cases x <;> cases e
  | coe y =>
    induction x using WithBot.recBotCoe with
    | bot => rw [← Option.some.inj e]
    | coe x => rw [← Option.some.inj e]; exact (exp_pos _).le

section
variable {S : ℕ} {inner inner' : SetModel X S} {V : inner.State → Prop} {V' : inner'.State → Prop} {XV : X → Prop} {f : X → X}
  {F : inner.State → inner'.State} {c : ℝ} {σ : Equiv.Perm (Fin S)} (hl : Lawful inner V XV)
  (h : Corresponds inner inner' V V' XV f F c σ)
include hl h

theorem hmmLlhs_corr (st : inner.State) (hv : V st) (a : ℝ) (u : Utt X) (hu : ∀ t, XV (u.2 t)) :
    ∃ v, hmmLlhs inner st a u = .ok v ∧ hmmLlhs inner' (F st) a (u.tr f) = .ok fun t s => v t (σ s) + a * c := by
  refine ⟨_, hmmLlhs_eq inner V XV hl st hv a u hu, seqFin_ok _ _ fun t => ?_⟩
  obtain ⟨w, hw⟩ := hl.llh_ok st (u.2 t) hv (hu t)
  show (inner'.llh (F st) (f (u.2 t)) >>= _) = _
  rw [h.llh _ _ _ hv (hu t) hw]
  show Except.ok _ = _
  unfold scoresOf
  rw [hw]
  congr 1
  funext s
  simp only [valueOf_ok]
  ring

theorem hmmRows_corr (g : CGraph S) (st : inner.State) (hv : V st) (a : ℝ) (ha : 0 ≤ a) (u : Utt X)
    (hu : ∀ t, XV (u.2 t)) (rows : List (X × (Fin S → ℝ))) (e : hmmRows g inner st a u = .ok rows) :
    (∀ r ∈ rows, XV r.1 ∧ ∀ s, 0 ≤ r.2 s) ∧
    hmmRows (permGraph σ g) inner' (F st) a (u.tr f) = .ok (rows.map fun r => (f r.1, r.2 ∘ σ)) := by
  obtain ⟨v, e1, e2⟩ := hmmLlhs_corr hl h st hv a u hu
  unfold hmmRows at e
  rw [e1, ok_bind] at e
  cases e3 : hmmResps g v with
  | error x => rw [e3] at e; cases e
  | ok r =>
    rw [e3] at e
    have e4 := Except.ok.inj e
    subst e4
    constructor
    · intro q hq
      obtain ⟨t, rfl⟩ := List.mem_ofFn.1 hq
      exact ⟨hu t, fun s => mul_nonneg ha (hmmResps_nonneg g v r e3 t s)⟩
    · unfold hmmRows
      rw [e2, ok_bind]
      change (hmmResps (n := u.1) (permGraph σ g) (fun t s => v t (σ s) + a * c) >>= _) = _
      rw [hmmResps_shift σ g v (a * c) r e3, List.map_ofFn]
      rfl

theorem hmmStep_corr (g : CGraph S) (st : inner.State) (hv : V st) (a : ℝ) (ha : 0 ≤ a) (utts : List (Utt X))
    (hu : ∀ u ∈ utts, ∀ t, XV (u.2 t)) (scale l : ℝ) (hs : 0 ≤ scale) (h0 : 0 < l) (h1 : l ≤ 1) (st' : inner.State)
    (e : hmmStep g inner st a utts scale l = .ok st') :
    V st' ∧ hmmStep (permGraph σ g) inner' (F st) a (utts.map fun u => u.tr f) scale l = .ok (F st') := by
  unfold hmmStep at e
  cases em : utts.mapM (hmmRows g inner st a) with
  | error x => rw [em] at e; cases e
  | ok rows =>
    rw [em] at e
    have e' : inner.step st rows.flatten scale l = .ok st' := e
    rw [mapM_ok_iff] at em
    have hrows : ∀ r ∈ rows.flatten, XV r.1 ∧ ∀ s, 0 ≤ r.2 s := by
      intro r hr
      obtain ⟨L, hL, hr⟩ := List.mem_flatten.1 hr
      obtain ⟨i, hi, rfl⟩ := List.getElem_of_mem hL
      have := (List.forall₂_iff_get.1 em).2 i (by rw [(List.forall₂_iff_get.1 em).1]; exact hi) hi
      exact (hmmRows_corr hl h g st hv a ha _ (hu _ (List.get_mem _ _)) _ this).1 r hr
    obtain ⟨st2, q1, q2, -⟩ := hl.step_ok st rows.flatten scale l hv hrows hs h0 h1
    rw [e'] at q1
    refine ⟨(Except.ok.inj q1) ▸ q2, ?_⟩
    unfold hmmStep
    have em' : (utts.map fun u => u.tr f).mapM (hmmRows (permGraph σ g) inner' (F st) a) =
        .ok (rows.map fun L => L.map fun r => (f r.1, r.2 ∘ σ)) := by
      rw [mapM_ok_iff, List.forall₂_map_left_iff, List.forall₂_map_right_iff]
      refine List.forall₂_iff_get.2 ⟨(List.forall₂_iff_get.1 em).1, fun i hi hi' => ?_⟩
      exact (hmmRows_corr hl h g st hv a ha _ (hu _ (List.get_mem _ _)) _ ((List.forall₂_iff_get.1 em).2 i hi hi')).2
    rw [em', ok_bind, ← List.map_flatten]
    exact h.step _ _ _ _ _ hv hrows hs h0 h1 e'

theorem hmmTrain_corr (g : CGraph S) (a : ℝ) (ha : 0 ≤ a) (utts : List (Utt X))
    (hu : ∀ u ∈ utts, ∀ t, XV (u.2 t)) (scale : ℝ) (hs : 0 ≤ scale) (ls : List ℝ) :
    ∀ st st' : inner.State, V st → (∀ l ∈ ls, 0 < l ∧ l ≤ 1) → hmmTrain g inner a utts scale st ls = .ok st' →
    V st' ∧ hmmTrain (permGraph σ g) inner' a (utts.map fun u => u.tr f) scale (F st) ls = .ok (F st') := by
  induction ls with
  | nil => intro st st' hv _ e; rw [← Except.ok.inj e]; exact ⟨hv, rfl⟩
  | cons l ls ih =>
    intro st st' hv hls e
    simp only [hmmTrain] at e
    cases e1 : hmmStep g inner st a utts scale l with
    | error x => rw [e1] at e; cases e
    | ok st1 =>
      rw [e1] at e
      obtain ⟨v1, e1'⟩ := hmmStep_corr hl h g st hv a ha utts hu scale l hs (hls l (by simp)).1 (hls l (by simp)).2 st1 e1
      obtain ⟨v2, e2'⟩ := ih st1 st' v1 (fun l hl => hls l (by simp [hl])) e
      refine ⟨v2, ?_⟩
      simp only [hmmTrain, e1']
      exact e2'

end

/-! ## Phone loops -/

section
variable {M S P : ℕ} {inner inner' : SetModel X M} {V : inner.State → Prop} {V' : inner'.State → Prop} {XV : X → Prop}
  {f : X → X} {F : inner.State → inner'.State} {c : ℝ} {τ : Equiv.Perm (Fin M)} (hl : Lawful inner V XV)
  (h : Corresponds inner inner' V V' XV f F c τ)
include hl h

theorem pdfRows_corr {S : ℕ} (order order' : Fin S → Fin M) (ho : ∀ s, τ (order' s) = order s)
    (rows : List (X × (Fin S → ℝ))) :
    pdfRows order' (rows.map fun r => (f r.1, r.2 ∘ (1 : Equiv.Perm (Fin S)))) =
      (pdfRows order rows).map fun r => (f r.1, r.2 ∘ τ) := by
  unfold pdfRows
  rw [List.map_map, List.map_map]
  apply List.map_congr_left
  intro r _
  simp only [Function.comp]
  congr 1
  funext m
  show _ = ∑ s, if order s = τ m then r.2 s else 0
  refine Finset.sum_congr rfl fun s _ => ?_
  rw [← ho]
  simp only [EmbeddingLike.apply_eq_iff_eq, Equiv.Perm.coe_one, id]

theorem pdfRows_ok {S : ℕ} (order : Fin S → Fin M) (rows : List (X × (Fin S → ℝ)))
    (hr : ∀ r ∈ rows, XV r.1 ∧ ∀ s, 0 ≤ r.2 s) : ∀ r ∈ pdfRows order rows, XV r.1 ∧ ∀ m, 0 ≤ r.2 m := by
  intro r hr1
  obtain ⟨r', hr2, rfl⟩ := List.mem_map.1 hr1
  refine ⟨(hr r' hr2).1, fun m => ?_⟩
  dsimp only
  refine Finset.sum_nonneg fun s _ => ?_
  split_ifs
  · exact (hr r' hr2).2 s
  · exact le_rfl

theorem loopAcc_corr (conf : LoopConf M S P) (st : LoopState inner S) (hv : V st.comps) (a : ℝ) (ha : 0 ≤ a) (u : LUtt X M)
    (hu : ∀ t, XV (u.frames.2 t)) (acc : List (X × (Fin M → ℝ)) × List ℝ) (e : loopAcc conf inner st a u = .ok acc) :
    (∀ r ∈ acc.1, XV r.1 ∧ ∀ m, 0 ≤ r.2 m) ∧
    loopAcc (conf.tr τ) inner' (st.tr F) a (u.tr f τ) = .ok (acc.1.map fun r => (f r.1, r.2 ∘ τ), acc.2) := by
  obtain ⟨fr, ali⟩ := u
  cases ali with
  | none =>
    have ho : ∀ s, τ ((conf.tr τ).order s) = conf.order s := fun s => by simp [LoopConf.tr]
    have hlo := orderedSet_lawful conf.order inner V XV hl
    have hco := orderedSet_corresponds hl h conf.order (conf.tr τ).order 1 (fun s => by rw [ho]; rfl)
    change (hmmRows (st.graph conf) (orderedSet conf.order inner) st.comps a fr >>= _) = _ at e
    cases er : hmmRows (st.graph conf) (orderedSet conf.order inner) st.comps a fr with
    | error x => rw [er] at e; cases e
    | ok rows =>
      rw [er] at e
      change (loopCounts conf inner st a fr >>= _) = _ at e
      cases ec : loopCounts conf inner st a fr with
      | error x => rw [ec] at e; cases e
      | ok cs =>
        rw [ec] at e
        have ea := Except.ok.inj e
        subst ea
        obtain ⟨r1, r2⟩ := hmmRows_corr hlo hco (st.graph conf) st.comps hv a ha fr hu rows er
        refine ⟨pdfRows_ok hl h _ _ r1, ?_⟩
        change (hmmRows (st.graph conf) (orderedSet (conf.tr τ).order inner') (F st.comps) a (fr.tr f) >>= _) = _
        have r2' : hmmRows (st.graph conf) (orderedSet (conf.tr τ).order inner') (F st.comps) a (fr.tr f) = _ := r2
        rw [r2', ok_bind]
        change (loopCounts (conf.tr τ) inner' (st.tr F) a (fr.tr f) >>= _) = _
        have ec' : loopCounts (conf.tr τ) inner' (st.tr F) a (fr.tr f) = .ok cs := by
          obtain ⟨v, e1, e2⟩ := hmmLlhs_corr hlo hco st.comps hv a fr hu
          unfold loopCounts at ec ⊢
          rw [e1, ok_bind] at ec
          change (hmmLlhs (orderedSet (conf.tr τ).order inner') (F st.comps) a (fr.tr f) >>= _) = _
          rw [e2, ok_bind]
          cases e3 : hmmResps (st.graph conf) v with
          | error x => rw [e3] at ec; cases ec
          | ok r =>
            rw [e3] at ec
            have e4 := hmmResps_shift 1 (st.graph conf) v (a * c) r e3
            change (hmmResps (n := fr.1) (st.graph conf) (fun t s => v t ((1 : Equiv.Perm (Fin S)) s) + a * c) >>= _) = _
            rw [permGraph_one] at e4
            rw [e4, ← Except.ok.inj ec]
            change Except.ok (accumulateCounts conf.starts conf.ends ⟨r 0, some ⟨fr.1,
              transPosts (st.graph conf) (asLog fun t s => v t ((1 : Equiv.Perm (Fin S)) s) + a * c)⟩⟩) = _
            congr 4
            rw [asLog_shift]
            congr 1
            funext i s d
            exact transPosts_shift 1 (st.graph conf) (asLog v) (fun _ => a * c) i s d
        rw [ec', ok_bind, pdfRows_corr hl h conf.order (conf.tr τ).order ho]
  | some al =>
    obtain ⟨S', g, order⟩ := al
    set order' : Fin S' → Fin M := fun s => τ.symm (order s) with hord
    have ho : ∀ s, τ (order' s) = order s := fun s => by simp [hord]
    have hlo := orderedSet_lawful order inner V XV hl
    have hco := orderedSet_corresponds hl h order order' 1 (fun s => by rw [ho]; rfl)
    change (hmmRows g (orderedSet order inner) st.comps a fr >>= _) = _ at e
    cases er : hmmRows g (orderedSet order inner) st.comps a fr with
    | error x => rw [er] at e; cases e
    | ok rows =>
      rw [er] at e
      have ea := Except.ok.inj e
      subst ea
      obtain ⟨r1, r2⟩ := hmmRows_corr hlo hco g st.comps hv a ha fr hu rows er
      refine ⟨pdfRows_ok hl h _ _ r1, ?_⟩
      change (hmmRows g (orderedSet order' inner') (F st.comps) a (fr.tr f) >>= _) = _
      have r2' : hmmRows g (orderedSet order' inner') (F st.comps) a (fr.tr f) = _ := r2
      rw [r2', ok_bind]
      change Except.ok (pdfRows order' _, _) = _
      rw [pdfRows_corr hl h order order' ho]
      rfl

theorem loopStep_corr (conf : LoopConf M S P) (st : LoopState inner S) (hv : V st.comps) (a : ℝ) (ha : 0 ≤ a)
    (utts : List (LUtt X M)) (hu : ∀ u ∈ utts, ∀ t, XV (u.frames.2 t)) (scale l : ℝ) (hs : 0 ≤ scale) (h0 : 0 < l)
    (h1 : l ≤ 1) (st' : LoopState inner S) (e : loopStep conf inner st a utts scale l = .ok st') :
    V st'.comps ∧
    loopStep (conf.tr τ) inner' (st.tr F) a (utts.map fun u => u.tr f τ) scale l = .ok (st'.tr F) := by
  unfold loopStep at e
  cases em : utts.mapM (loopAcc conf inner st a) with
  | error x => rw [em] at e; cases e
  | ok accs =>
    rw [em, ok_bind] at e
    rw [mapM_ok_iff] at em
    have hrows : ∀ r ∈ (accs.map Prod.fst).flatten, XV r.1 ∧ ∀ m, 0 ≤ r.2 m := by
      intro r hr
      obtain ⟨L, hL, hr⟩ := List.mem_flatten.1 hr
      obtain ⟨q, hq, rfl⟩ := List.mem_map.1 hL
      obtain ⟨i, hi, rfl⟩ := List.getElem_of_mem hq
      have := (List.forall₂_iff_get.1 em).2 i (by rw [(List.forall₂_iff_get.1 em).1]; exact hi) hi
      exact (loopAcc_corr hl h conf st hv a ha _ (hu _ (List.get_mem _ _)) _ this).1 r hr
    obtain ⟨s2, q1, q2, -⟩ := hl.step_ok st.comps (accs.map Prod.fst).flatten scale l hv hrows hs h0 h1
    rw [q1, ok_bind] at e
    have hstep := h.step _ _ _ _ _ hv hrows hs h0 h1 q1
    have em' : (utts.map fun u => u.tr f τ).mapM (loopAcc (conf.tr τ) inner' (st.tr F) a) =
        .ok (accs.map fun q => (q.1.map fun r => (f r.1, r.2 ∘ τ), q.2)) := by
      rw [mapM_ok_iff, List.forall₂_map_left_iff, List.forall₂_map_right_iff]
      refine List.forall₂_iff_get.2 ⟨(List.forall₂_iff_get.1 em).1, fun i hi hi' => ?_⟩
      exact (loopAcc_corr hl h conf st hv a ha _ (hu _ (List.get_mem _ _)) _ ((List.forall₂_iff_get.1 em).2 i hi hi')).2
    unfold loopStep
    rw [em', ok_bind, List.map_map, List.map_map]
    have hf : (accs.map (Prod.fst ∘ fun q : List (X × (Fin M → ℝ)) × List ℝ =>
        (q.1.map fun r => (f r.1, r.2 ∘ τ), q.2))).flatten =
        (accs.map Prod.fst).flatten.map fun r => (f r.1, r.2 ∘ τ) := by
      rw [List.map_flatten, List.map_map]
      rfl
    rw [hf]
    have hstep' : inner'.step (st.tr F).comps ((accs.map Prod.fst).flatten.map fun r => (f r.1, r.2 ∘ τ)) scale l =
        .ok (F s2) := hstep
    rw [hstep', ok_bind]
    change V st'.comps ∧ ((dirFam P).update st.weights (vsmul scale (wsum P (accs.map fun c => (1, c.2)))) l >>= _) = _
    cases ew : (dirFam P).update st.weights (vsmul scale (wsum P (accs.map fun c => (1, c.2)))) l with
    | error x => rw [ew] at e; cases e
    | ok w =>
      rw [ew, ok_bind] at e
      rw [ok_bind]
      unfold LoopState.make at e ⊢
      cases elw : logWeights P w.post with
      | error x => rw [elw] at e; cases e
      | ok lw =>
        rw [elw] at e
        rw [← Except.ok.inj e]
        exact ⟨q2, rfl⟩

theorem loopTrain_corr (conf : LoopConf M S P) (a : ℝ) (ha : 0 ≤ a)
    (utts : List (LUtt X M)) (hu : ∀ u ∈ utts, ∀ t, XV (u.frames.2 t)) (scale : ℝ) (hs : 0 ≤ scale) (ls : List ℝ) :
    ∀ st st' : LoopState inner S, V st.comps → (∀ l ∈ ls, 0 < l ∧ l ≤ 1) →
    loopTrain conf inner a utts scale st ls = .ok st' → V st'.comps ∧
    loopTrain (conf.tr τ) inner' a (utts.map fun u => u.tr f τ) scale (st.tr F) ls = .ok (st'.tr F) := by
  induction ls with
  | nil => intro st st' hv _ e; rw [← Except.ok.inj e]; exact ⟨hv, rfl⟩
  | cons l ls ih =>
    intro st st' hv hls e
    simp only [loopTrain] at e
    cases e1 : loopStep conf inner st a utts scale l with
    | error x => rw [e1] at e; cases e
    | ok st1 =>
      rw [e1] at e
      obtain ⟨v1, e1'⟩ := loopStep_corr hl h conf st hv a ha utts hu scale l hs (hls l (by simp)).1 (hls l (by simp)).2 st1 e1
      obtain ⟨v2, e2'⟩ := ih st1 st' v1 (fun l hl => hls l (by simp [hl])) e
      refine ⟨v2, ?_⟩
      simp only [loopTrain, e1']
      exact e2'

end

end Verif.VB
