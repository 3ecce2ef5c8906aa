import Verif.Lemmas.Rescale

/-!
# Corresponding models: weights and mixtures
-/

namespace Verif.VB

open Real Verif.Dists Verif.DistSpec Verif.Mixture Verif.Props

variable {X P : Type}

/-! ## Renumbered weights -/

theorem getD_ofFn' {C : ℕ} (c : Fin C → ℝ) (k : Fin C) : (List.ofFn c).getD k 0 = c k := by
  rw [List.getD_eq_getElem _ _ (by simp)]
  simp

theorem permW_ofFn {C : ℕ} (σ : Equiv.Perm (Fin C)) (c : Fin C → ℝ) : permW σ (List.ofFn c) = List.ofFn (c ∘ σ) := by
  unfold permW
  simp only [getD_ofFn']
  rfl

theorem permW_one {C : ℕ} (w : List ℝ) (h : w.length = C) : permW (1 : Equiv.Perm (Fin C)) w = w := by
  obtain ⟨w, rfl⟩ := exists_ofFn w h
  rw [permW_ofFn]
  rfl

theorem lwOf_ofFn {C : ℕ} (c : Fin C → ℝ) (k : Fin C) : lwOf C (List.ofFn c) k = digamma (c k) - digamma (∑ j, c j) := by
  obtain ⟨C, rfl⟩ : ∃ C', C = C' + 1 := ⟨C - 1, by have := k.2; omega⟩
  unfold lwOf
  rw [catExpLlh_eq]
  simp

theorem lwOf_permW {C : ℕ} (σ : Equiv.Perm (Fin C)) (c : List ℝ) (h : c.length = C) (k : Fin C) :
    lwOf C (permW σ c) k = lwOf C c (σ k) := by
  obtain ⟨c, rfl⟩ := exists_ofFn c h
  rw [permW_ofFn, lwOf_ofFn, lwOf_ofFn]
  simp only [Function.comp]
  rw [Equiv.sum_comp σ c]

theorem permW_dirValid {C : ℕ} (σ : Equiv.Perm (Fin C)) (c : List ℝ) (h : DirValid C c) : DirValid C (permW σ c) := by
  obtain ⟨c, rfl⟩ := exists_ofFn c h.1
  rw [permW_ofFn]
  refine ⟨by simp, fun x hx => ?_⟩
  obtain ⟨k, rfl⟩ := List.mem_ofFn.1 hx
  exact h.2 _ (List.mem_ofFn.2 ⟨σ k, rfl⟩)

theorem permW_counts {C : ℕ} (σ : Equiv.Perm (Fin C)) (c : List ℝ) (h : CountsValid C c) : CountsValid C (permW σ c) := by
  obtain ⟨c, rfl⟩ := exists_ofFn c h.1
  rw [permW_ofFn]
  refine ⟨by simp, fun x hx => ?_⟩
  obtain ⟨k, rfl⟩ := List.mem_ofFn.1 hx
  exact h.2 _ (List.mem_ofFn.2 ⟨σ k, rfl⟩)

theorem catStats_inj {C : ℕ} (hC : 1 ≤ C) (u v : Fin C → ℝ) (h : catStats (List.ofFn u) = catStats (List.ofFn v)) :
    u = v := by
  obtain ⟨C, rfl⟩ : ∃ C', C = C' + 1 := ⟨C - 1, by omega⟩
  have e1 := dirFromNatural_catStats (List.ofFn u) (by simp)
  have e2 := dirFromNatural_catStats (List.ofFn v) (by simp)
  rw [h, e2] at e1
  have e3 := Except.ok.inj e1
  rw [List.map_ofFn, List.map_ofFn] at e3
  have e4 := List.ofFn_injective e3
  funext i
  have := congrFun e4 i
  simp only [Function.comp, add_left_inj] at this
  exact this.symm

/-- Renumbering the categories of a Dirichlet and of its observations. -/
theorem dir_corresponds {C : ℕ} (hC : 1 ≤ C) (σ : Equiv.Perm (Fin C)) :
    ParamCorresponds (dirFam C) (DirValid C) (CountsValid C) (permW σ) (permW σ) 0 := by
  have hne : ∀ u : Fin C → ℝ, List.ofFn u ≠ [] := fun u => ne_nil_of_length hC (by simp)
  refine param_corresponds (dirConj hC) (fun u : Fin C → ℝ => catStats (List.ofFn u)) ?_ ?_ ?_ ?_
    (fun c i => c.getD i 0 - 1) ?_ (fun x i => x.getD i 0) ?_ ?_ (LinearMap.funLeft ℝ ℝ σ) 0 _ _ 0 0
    (permW_dirValid σ) (permW_counts σ) ?_ ?_ ?_ ?_ ?_
  · intro u v
    rw [← catStats_vadd _ _ (by simp)]
    congr 1
    simp [vadd, zipWith_ofFn]
    rfl
  · intro r u
    rw [← catStats_vsmul]
    congr 1
    simp [vsmul, List.map_ofFn, Function.comp_def]
    rfl
  · show catStats (List.ofFn fun _ : Fin C => (0 : ℝ)) = List.replicate C 0
    obtain ⟨C, rfl⟩ : ∃ C', C = C' + 1 := ⟨C - 1, by omega⟩
    unfold catStats
    rw [List.ofFn_const]
    simp [List.dropLast_replicate]
    rw [← List.replicate_succ']
  · exact fun u v h => catStats_inj hC u v h
  · intro c hc
    obtain ⟨c, rfl⟩ := exists_ofFn c hc.1
    show dirNatural _ = _
    rw [dirNatural_eq_catStats, List.map_ofFn]
    simp only [getD_ofFn']
    rfl
  · intro x hx
    obtain ⟨x, rfl⟩ := exists_ofFn x hx.1
    simp only [getD_ofFn']
    rfl
  · intro p q hp hq h
    have e1 := C32_dirichlet_roundtrip p (ne_nil_of_length hC hp.1)
    have e2 := C32_dirichlet_roundtrip q (ne_nil_of_length hC hq.1)
    have h' : dirNatural p = dirNatural q := h
    rw [h', e2] at e1
    exact (Except.ok.inj e1).symm
  · intro c hc
    obtain ⟨c, rfl⟩ := exists_ofFn c hc.1
    rw [permW_ofFn]
    funext i
    simp only [getD_ofFn', LinearMap.funLeft_apply]
    rfl
  · intro x hx
    obtain ⟨x, rfl⟩ := exists_ofFn x hx.1
    rw [permW_ofFn]
    funext i
    simp only [getD_ofFn', LinearMap.funLeft_apply]
    rfl
  · intro c w hc
    show vdot (dirExpStats (permW σ c)) _ = vdot (dirExpStats c) _ + 0
    rw [vdot_catStats hC _ (permW_dirValid σ c hc).1, vdot_catStats hC _ hc.1, add_zero,
      ← Equiv.sum_comp σ fun k => w k * lwOf C c k]
    refine Finset.sum_congr rfl fun k _ => ?_
    rw [lwOf_permW _ _ hc.1]
    rfl
  · exact fun x _ => rfl
  · intro c hc
    obtain ⟨c, rfl⟩ := exists_ofFn c hc.1
    show dirLogNorm _ = dirLogNorm _ + 0 + 0
    rw [permW_ofFn]
    unfold dirLogNorm
    simp only [List.map_ofFn, List.sum_ofFn, add_zero, Function.comp]
    rw [Equiv.sum_comp σ c, Equiv.sum_comp σ fun k => lgamma (c k)]

/-! ## The local quantities of a mixture -/

theorem mixLocal_perm {K : ℕ} (hK : 0 < K) (σ : Equiv.Perm (Fin K)) (lw v : Fin K → ℝ) (c : ℝ) :
    mixLocal (fun k => lw (σ k)) (fun k => v (σ k) + c) =
      ⟨fun k => (mixLocal lw v).resps (σ k), (mixLocal lw v).value + c⟩ := by
  have hpos : 0 < ∑ k, exp (v k + lw k) := by
    have : Nonempty (Fin K) := ⟨⟨0, hK⟩⟩
    exact Finset.sum_pos (fun k _ => exp_pos _) Finset.univ_nonempty
  have hn : log (∑ k, exp (v (σ k) + c + lw (σ k))) = log (∑ k, exp (v k + lw k)) + c := by
    have : ∑ k, exp (v (σ k) + c + lw (σ k)) = (∑ k, exp (v k + lw k)) * exp c := by
      rw [← Equiv.sum_comp σ fun k => exp (v k + lw k), Finset.sum_mul]
      refine Finset.sum_congr rfl fun k _ => ?_
      rw [← exp_add]; congr 1; ring
    rw [this, log_mul hpos.ne' (exp_pos _).ne', log_exp]
  have hresp : ∀ k, exp (v (σ k) + c + lw (σ k) - log (∑ k, exp (v (σ k) + c + lw (σ k)))) =
      (mixLocal lw v).resps (σ k) := by
    intro k
    show _ = exp (v (σ k) + lw (σ k) - log (∑ k, exp (v k + lw k)))
    rw [hn]; congr 1; ring
  have h1 := C44_value hK (fun k => lw (σ k)) (fun k => v (σ k) + c)
  have h2 := C44_value hK lw v
  have h3 : ∑ k, exp (lw (σ k)) * exp (v (σ k) + c) = (∑ k, exp (lw k) * exp (v k)) * exp c := by
    rw [← Equiv.sum_comp σ fun k => exp (lw k) * exp (v k), Finset.sum_mul]
    refine Finset.sum_congr rfl fun k _ => ?_
    rw [exp_add]; ring
  have hpos' : 0 < ∑ k, exp (lw k) * exp (v k) := by
    have : Nonempty (Fin K) := ⟨⟨0, hK⟩⟩
    exact Finset.sum_pos (fun k _ => mul_pos (exp_pos _) (exp_pos _)) Finset.univ_nonempty
  have hval : (mixLocal (fun k => lw (σ k)) (fun k => v (σ k) + c)).value = (mixLocal lw v).value + c := by
    rw [h1, h2, h3, log_mul hpos'.ne' (exp_pos _).ne', log_exp]
  rw [← hval]
  show (⟨_, _⟩ : LocalOut K) = _
  congr 1
  funext k
  exact hresp k

/-! ## Sets of mixtures -/

theorem flatIdx_cases {M C : ℕ} (i : Fin (M * C)) : ∃ m c, i = flatIdx (M := M) (C := C) m c := by
  refine ⟨(finProdFinEquiv.symm i).1, (finProdFinEquiv.symm i).2, ?_⟩
  conv_lhs => rw [← finProdFinEquiv.apply_symm_apply i]
  apply Fin.ext
  simp only [flatIdx, finProdFinEquiv_apply_val]
  ring

theorem mixtureSet_corresponds {M C : ℕ} (hC : 1 ≤ C) {inner inner' : SetModel X (M * C)} {V : inner.State → Prop}
    {V' : inner'.State → Prop} {XV : X → Prop} {f : X → X} {F : inner.State → inner'.State} {c : ℝ}
    (τ : Equiv.Perm (Fin M)) (ρ : Fin M → Equiv.Perm (Fin C)) (θ : Equiv.Perm (Fin (M * C)))
    (hθ : ∀ m k, θ (flatIdx m k) = flatIdx (τ m) (ρ m k)) (hl : Lawful inner V XV)
    (h : Corresponds inner inner' V V' XV f F c θ) :
    Corresponds (mixtureSet M C inner) (mixtureSet M C inner') (MixSetValid inner V) (MixSetValid inner' V') XV f
      (fun st => (fun m => (st.1 (τ m)).tr (permW (ρ m)), F st.2)) c τ := by
  have hlocal : ∀ (st : (mixtureSet M C inner).State) x v, MixSetValid inner V st → inner.llh st.2 x = .ok v →
      mixSetOut inner st.1 st.2 x = .ok fun m => mixLocal (lwOf C (st.1 m).post) fun k => v (flatIdx m k) := by
    intro st x v hv hv1
    unfold mixSetOut
    rw [seqFin_ok _ (fun m => lwOf C (st.1 m).post) fun m => logWeights_eq _ (hv.1 m).2.1, hv1]
    show Except.ok _ = _
    congr 1
    funext m
    exact C44_mixture_set_agrees hC _ _ m
  have hlocal' : ∀ (st : (mixtureSet M C inner).State) x v, MixSetValid inner V st → XV x → inner.llh st.2 x = .ok v →
      mixSetOut inner' (fun m => (st.1 (τ m)).tr (permW (ρ m))) (F st.2) (f x) = .ok fun m =>
        ⟨fun k => (mixLocal (lwOf C (st.1 (τ m)).post) fun k => v (flatIdx (τ m) k)).resps (ρ m k),
          (mixLocal (lwOf C (st.1 (τ m)).post) fun k => v (flatIdx (τ m) k)).value + c⟩ := by
    intro st x v hv hx hv1
    unfold mixSetOut
    show (seqFin (fun m => logWeights C (permW (ρ m) (st.1 (τ m)).post)) >>= _) = _
    rw [seqFin_ok _ (fun m => lwOf C (permW (ρ m) (st.1 (τ m)).post)) fun m =>
      logWeights_eq _ (permW_dirValid _ _ (hv.1 _).2).1, h.llh _ _ _ hv.2 hx hv1]
    show Except.ok _ = _
    congr 1
    funext m
    rw [C44_mixture_set_agrees hC, ← mixLocal_perm hC]
    congr 1
    · funext k
      exact lwOf_permW _ _ (hv.1 _).2.1 k
    · funext k
      rw [hθ]
  refine ⟨fun st hv => ⟨fun m => (dir_corresponds hC (ρ m)).tr_valid _ (hv.1 _), h.valid _ hv.2⟩, h.data, ?_, ?_, ?_⟩
  · intro st x v hv hx e
    obtain ⟨u, hu⟩ := hl.llh_ok st.2 x hv.2 hx
    have e1 : (mixtureSet M C inner).llh st x = .ok fun m =>
        (mixLocal (lwOf C (st.1 m).post) fun k => u (flatIdx m k)).value := by
      show (mixSetOut inner st.1 st.2 x >>= _) = _
      rw [hlocal st x u hv hu]
      rfl
    rw [e1] at e
    rw [← Except.ok.inj e]
    show (mixSetOut inner' _ (F st.2) (f x) >>= _) = _
    rw [hlocal' st x u hv hx hu]
    rfl
  · intro st hv
    show (seqFin _ >>= _) = (seqFin _ >>= _)
    have e1 : ∀ m, (dirFam C).paramKl (st.1 m) = .ok ((dirConj hC).D (st.1 m).post (st.1 m).prior) :=
      fun m => (dirConj hC).paramKl_eq _ (hv.1 m)
    rw [seqFin_ok _ _ e1, seqFin_ok (fun m => (dirFam C).paramKl ((st.1 (τ m)).tr (permW (ρ m))))
      (fun m => (dirConj hC).D (st.1 (τ m)).post (st.1 (τ m)).prior)]
    · show (inner'.kl (F st.2) >>= _) = (inner.kl st.2 >>= _)
      rw [h.kl _ hv.2]
      congr 1
      funext k
      congr 2
      exact Equiv.sum_comp τ fun m => (dirConj hC).D (st.1 m).post (st.1 m).prior
    · intro m
      rw [← e1]
      exact (dir_corresponds hC (ρ m)).kl _ _ (hv.1 _).2 (hv.1 _).1
  · intro st rows scale l st' hv hr hs h0 h1 e
    obtain ⟨st'', q1, -, -⟩ := (mixtureSet_lawful (M := M) hC inner V XV hl).step_ok st rows scale l hv hr hs h0 h1
    -- the local quantities of the frames
    choose! u hu using fun x (hx : XV x) => hl.llh_ok st.2 x hv.2 hx
    set R : X → Fin M → Fin C → ℝ := fun x m =>
      (mixLocal (lwOf C (st.1 m).post) fun k => u x (flatIdx m k)).resps with hR
    have hR0 : ∀ x m k, 0 ≤ R x m k := fun x m k => (C44_responsibilities hC _ _).1.1 k
    have houts : rows.mapM (fun r => do
        let o ← mixSetOut inner st.1 st.2 r.1
        (.ok (r.1, r.2, fun m => (o m).resps) : Except Err (X × (Fin M → ℝ) × (Fin M → Fin C → ℝ)))) =
        .ok (rows.map fun r => (r.1, r.2, R r.1)) := by
      apply mapM_ok_map
      intro r hr1
      rw [hlocal st r.1 (u r.1) hv (hu _ (hr r hr1).1)]
      rfl
    have houts' : (rows.map fun r => (f r.1, r.2 ∘ τ)).mapM (fun r => do
        let o ← mixSetOut inner' (fun m => (st.1 (τ m)).tr (permW (ρ m))) (F st.2) r.1
        (.ok (r.1, r.2, fun m => (o m).resps) : Except Err (X × (Fin M → ℝ) × (Fin M → Fin C → ℝ)))) =
        .ok ((rows.map fun r => (f r.1, r.2 ∘ τ, fun m k => R r.1 (τ m) (ρ m k)))) := by
      rw [mapM_ok_iff, List.forall₂_map_left_iff, List.forall₂_map_right_iff, List.forall₂_same]
      intro r hr1
      rw [hlocal' st r.1 (u r.1) hv (hr r hr1).1 (hu _ (hr r hr1).1)]
      rfl
    have hrow : ∀ m : Fin M, ∀ r ∈ rows.map (fun r => ((1 : ℝ), List.ofFn (jointResps (R r.1) r.2 m))),
        0 ≤ r.1 ∧ CountsValid C r.2 := by
      intro m r hr1
      obtain ⟨r', hr2, rfl⟩ := List.mem_map.1 hr1
      refine ⟨zero_le_one, by simp, ?_⟩
      intro v hv
      rw [List.mem_ofFn] at hv
      obtain ⟨c, rfl⟩ := hv
      exact mul_nonneg (hR0 _ _ _) ((hr r' hr2).2 m)
    choose w e1 v1 e2 e3 using fun m : Fin M =>
      (dirConj hC).gain (st.1 m) (rows.map fun r => ((1 : ℝ), List.ofFn (jointResps (R r.1) r.2 m))) scale l
        (hv.1 m) (hrow m) hs h0 h1
    have hrows : ∀ r ∈ rows.map (fun r => (r.1, totalResps (R r.1) r.2)), XV r.1 ∧ ∀ i, 0 ≤ r.2 i := by
      intro r hr1
      obtain ⟨r', hr2, rfl⟩ := List.mem_map.1 hr1
      exact ⟨(hr r' hr2).1, fun i => mul_nonneg (hR0 _ _ _) ((hr r' hr2).2 _)⟩
    obtain ⟨s', s1, s2, -⟩ := hl.step_ok st.2 (rows.map fun r => (r.1, totalResps (R r.1) r.2)) scale l hv.2 hrows hs h0 h1
    have hst : (mixtureSet M C inner).step st rows scale l = .ok (fun m => ⟨(st.1 m).prior, w m⟩, s') := by
      show (rows.mapM _ >>= _) = _
      rw [houts, ok_bind, List.map_map, seqFin_ok _ (fun m => (⟨(st.1 m).prior, w m⟩ : CParam (List ℝ))), ok_bind]
      · show (inner.step st.2 _ scale l >>= _) = _
        have : (rows.map ((fun o : X × (Fin M → ℝ) × (Fin M → Fin C → ℝ) =>
            (o.1, totalResps o.2.2 o.2.1)) ∘ fun r => (r.1, r.2, R r.1))) =
            rows.map fun r => (r.1, totalResps (R r.1) r.2) := rfl
        rw [this, s1]
        rfl
      · intro m
        have := e1 m
        unfold Conj.acc at this
        rw [List.map_map] at this
        rw [List.map_map]
        exact this
    rw [hst] at e
    rw [← Except.ok.inj e]
    show ((rows.map fun r => (f r.1, r.2 ∘ τ)).mapM _ >>= _) = _
    rw [houts', ok_bind, List.map_map, seqFin_ok _
      (fun m => (⟨permW (ρ m) (st.1 (τ m)).prior, permW (ρ m) (w (τ m))⟩ : CParam (List ℝ))), ok_bind]
    · show (inner'.step (F st.2) _ scale l >>= _) = _
      have := h.step st.2 _ scale l s' hv.2 hrows hs h0 h1 s1
      have hrw : (rows.map ((fun o : X × (Fin M → ℝ) × (Fin M → Fin C → ℝ) =>
          (o.1, totalResps o.2.2 o.2.1)) ∘ fun r => (f r.1, r.2 ∘ τ, fun m k => R r.1 (τ m) (ρ m k)))) =
          (rows.map fun r => (r.1, totalResps (R r.1) r.2)).map fun r => (f r.1, r.2 ∘ θ) := by
        rw [List.map_map]
        apply List.map_congr_left
        intro r _
        simp only [Function.comp]
        congr 1
        funext i
        obtain ⟨m, k, rfl⟩ := flatIdx_cases i
        rw [Function.comp_apply, hθ, (C44_mixture_set_accumulate _ _ m).1 k, (C44_mixture_set_accumulate _ _ (τ m)).1]
        rfl
      rw [hrw, this]
      rfl
    · intro m
      have := (dir_corresponds hC (ρ m)).update (st.1 (τ m))
        (rows.map fun r => ((1 : ℝ), List.ofFn (jointResps (R r.1) r.2 (τ m)))) scale l _ (hv.1 _) (hrow _) hs h0 h1
        (e1 (τ m))
      rw [← this]
      unfold CParam.tr
      rw [List.map_map, List.map_map]
      congr 3
      apply List.map_congr_left
      intro r _
      simp only [Function.comp]
      congr 1
      show catStats _ = catStats _
      rw [permW_ofFn]
      rfl

end Verif.VB
