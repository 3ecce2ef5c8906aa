import Verif.Lemmas.VBHmm
import Verif.Spec.Rescale

/-!
# Corresponding models: conjugate parameters and sets
-/

namespace Verif.VB

open Real Verif.Dists Verif.DistSpec Verif.Mixture Verif.Props

variable {X P : Type}

/-- What the change of units does to the natural parameters and the statistics: the same linear map `L` on both; the
expected statistics turn by the adjoint, up to the linear form `k`. -/
theorem param_corresponds {E : Type} [AddCommGroup E] [Module ℝ E] {fam : Family X P} {V : P → Prop} {XV : X → Prop}
    (C : Conj fam V XV) (enc : E → List ℝ) (hadd : ∀ u v, vadd (enc u) (enc v) = enc (u + v))
    (hsmul : ∀ (r : ℝ) u, vsmul r (enc u) = enc (r • u)) (hzero : enc 0 = List.replicate fam.sdim 0)
    (hinj : Function.Injective enc) (n : P → E) (hn : ∀ p, V p → C.N p = enc (n p)) (s : X → E)
    (hs : ∀ x, XV x → fam.stats x = enc (s x)) (hN : ∀ p q, V p → V q → C.N p = C.N q → p = q)
    (L : E →ₗ[ℝ] E) (k : E →ₗ[ℝ] ℝ) (f : X → X) (F : P → P) (c κ : ℝ)
    (hV : ∀ p, V p → V (F p)) (hX : ∀ x, XV x → XV (f x))
    (hnF : ∀ p, V p → n (F p) = L (n p)) (hsf : ∀ x, XV x → s (f x) = L (s x))
    (hT : ∀ p w, V p → vdot (C.T (F p)) (enc (L w)) = vdot (C.T p) (enc w) + k w)
    (hk : ∀ x, XV x → k (s x) = c) (hA : ∀ p, V p → C.A (F p) = C.A p + k (n p) + κ) :
    ParamCorresponds fam V XV f F c := by
  have hsub : ∀ u v, vsub (enc u) (enc v) = enc (u - v) := by
    intro u v
    rw [vsub_eq, hsmul, hadd]
    congr 1
    simp [sub_eq_add_neg]
  have hw : ∀ (g : X → X) (K : E →ₗ[ℝ] E), (∀ x, XV x → XV (g x)) → (∀ x, XV x → s (g x) = K (s x)) →
      ∀ rows : List (ℝ × X), (∀ r ∈ rows, 0 ≤ r.1 ∧ XV r.2) →
      wsum fam.sdim (rows.map fun r => (r.1, fam.stats (g r.2))) =
        enc (K (rows.map fun r => r.1 • s r.2).sum) := by
    intro g K hg hgs rows
    induction rows with
    | nil => intro _; simp only [List.map_nil, wsum, List.sum_nil, map_zero, hzero]
    | cons r rows ih =>
      intro hr
      simp only [List.map_cons, wsum, List.sum_cons]
      rw [ih fun q hq => hr q (by simp [hq]), hs _ (hg _ (hr r (by simp)).2), hgs _ (hr r (by simp)).2, hsmul, hadd,
        map_add, map_smul]
  refine ⟨hV, hX, ?_, ?_, ?_⟩
  · intro p x v hp hx h
    rw [C.llh_eq p x hp.2 hx] at h
    rw [C.llh_eq ⟨F p.prior, F p.post⟩ (f x) (hV _ hp.2) (hX x hx), ← Except.ok.inj h, hs _ (hX x hx), hsf x hx]
    dsimp only
    rw [hT _ _ hp.2, hk x hx, hs x hx]
    congr 1
    ring
  · intro p q hp hq
    rw [C.kl_eq _ _ hp hq, C.kl_eq _ _ (hV _ hp) (hV _ hq)]
    unfold Conj.D
    rw [hn _ hp, hn _ hq, hn _ (hV _ hp), hn _ (hV _ hq), hnF _ hp, hnF _ hq, hsub, hsub, ← map_sub, hT _ _ hp, hA _ hp,
      hA _ hq, map_sub]
    congr 1
    ring
  · intro p rows scale l p' hp hr hsc h0 h1 h
    obtain ⟨q, e1, v1, e2, _⟩ := C.gain p rows scale l hp hr hsc h0 h1
    have h' : fam.update p (C.acc rows scale) l = .ok p' := h
    rw [e1] at h'
    have hp' := Except.ok.inj h'
    subst hp'
    have hr' : ∀ r ∈ rows.map (fun r => (r.1, f r.2)), 0 ≤ r.1 ∧ XV r.2 := by
      intro r hr1
      obtain ⟨r', hr2, rfl⟩ := List.mem_map.1 hr1
      exact ⟨(hr r' hr2).1, hX _ (hr r' hr2).2⟩
    obtain ⟨q', e1', v1', e2', _⟩ := C.gain ⟨F p.prior, F p.post⟩ (rows.map fun r => (r.1, f r.2)) scale l
      ⟨hV _ hp.1, hV _ hp.2⟩ hr' hsc h0 h1
    have hacc : C.acc (rows.map fun r => (r.1, f r.2)) scale =
        vsmul scale (wsum fam.sdim (rows.map fun r => (r.1, fam.stats (f r.2)))) := by
      unfold Conj.acc
      rw [List.map_map]
      rfl
    have hq : q' = F q := by
      apply hN _ _ v1' (hV _ v1)
      rw [e2', hacc, hw f L hX hsf rows hr, hn _ (hV _ v1), hnF _ v1]
      dsimp only
      rw [hn _ (hV _ hp.1), hn _ (hV _ hp.2), hnF _ hp.1, hnF _ hp.2]
      unfold Conj.acc at e2
      have := hw id LinearMap.id (fun x h => h) (fun x _ => rfl) rows hr
      simp only [id, LinearMap.id_apply] at this
      rw [this, hn _ hp.1, hn _ hp.2, hn _ v1] at e2
      simp only [hsmul, hadd, hsub] at e2 ⊢
      rw [hinj e2]
      simp only [map_add, map_sub, map_smul]
    rw [hacc] at e1'
    rw [e1', hq]

/-! ## Sets -/

theorem ParamCorresponds.tr_valid {fam : Family X P} {V : P → Prop} {XV : X → Prop} {f : X → X} {F : P → P} {c : ℝ}
    (h : ParamCorresponds fam V XV f F c) (p : CParam P) (hp : ParamValid V p) : ParamValid V (p.tr F) :=
  ⟨h.valid _ hp.1, h.valid _ hp.2⟩

/-- A set of conjugate models, renumbered and translated. -/
theorem familySet_corresponds {fam : Family X P} {V : P → Prop} {XV : X → Prop} (C : Conj fam V XV) {f : X → X}
    {F : P → P} {c : ℝ} (h : ParamCorresponds fam V XV f F c) {M : ℕ} (σ : Equiv.Perm (Fin M)) :
    Corresponds (familySet fam M) (familySet fam M) (SetValid V) (SetValid V) XV f
      (fun st m => (st (σ m)).tr F) c σ := by
  refine ⟨fun st hv m => h.tr_valid _ (hv _), h.data, ?_, ?_, ?_⟩
  · intro st x v hv hx e
    have e1 : (familySet fam M).llh st x = .ok fun m => vdot (C.T (st m).post) (fam.stats x) + C.base :=
      seqFin_ok _ _ fun m => C.llh_eq _ x (hv m).2 hx
    rw [e1] at e
    refine seqFin_ok _ _ fun m => ?_
    rw [← Except.ok.inj e]
    exact h.llh (st (σ m)) x _ (hv _) hx (C.llh_eq _ x (hv _).2 hx)
  · intro st hv
    show (seqFin _ >>= _) = (seqFin _ >>= _)
    have e1 : ∀ m, fam.paramKl (st m) = .ok (C.D (st m).post (st m).prior) := fun m => C.paramKl_eq _ (hv m)
    rw [seqFin_ok _ _ e1, seqFin_ok (fun m => fam.paramKl ((st (σ m)).tr F))
      (fun m => C.D (st (σ m)).post (st (σ m)).prior)]
    · show Except.ok _ = Except.ok _
      congr 1
      exact Equiv.sum_comp σ fun m => C.D (st m).post (st m).prior
    · intro m
      rw [← e1]
      exact h.kl _ _ (hv _).2 (hv _).1
  · intro st rows scale l st' hv hr hs h0 h1 e
    have hrow : ∀ m : Fin M, ∀ r ∈ rows.map (fun r => (r.2 m, r.1)), 0 ≤ r.1 ∧ XV r.2 := by
      intro m r hr1
      obtain ⟨r', hr2, rfl⟩ := List.mem_map.1 hr1
      exact ⟨(hr r' hr2).2 m, (hr r' hr2).1⟩
    choose p' e1 v1 e2 e3 using fun m : Fin M =>
      C.gain (st m) (rows.map fun r => (r.2 m, r.1)) scale l (hv m) (hrow m) hs h0 h1
    have e4 : ∀ m, fam.update (st m) (vsmul scale (wsum fam.sdim (rows.map fun r => (r.2 m, fam.stats r.1)))) l =
        .ok ⟨(st m).prior, p' m⟩ := by
      intro m
      have := e1 m
      unfold Conj.acc at this
      rw [List.map_map] at this
      exact this
    have e5 : (familySet fam M).step st rows scale l = .ok fun m => ⟨(st m).prior, p' m⟩ := seqFin_ok _ _ e4
    rw [e5] at e
    rw [← Except.ok.inj e]
    refine seqFin_ok _ _ fun m => ?_
    have := h.update (st (σ m)) (rows.map fun r => (r.2 (σ m), r.1)) scale l _ (hv _) (hrow _) hs h0 h1
      (by rw [List.map_map]; exact e4 (σ m))
    rw [List.map_map] at this
    rw [List.map_map]
    exact this

theorem orderedSet_corresponds {M S : ℕ} {inner inner' : SetModel X M} {V : inner.State → Prop} {V' : inner'.State → Prop}
    {XV : X → Prop} {f : X → X} {F : inner.State → inner'.State} {c : ℝ} {τ : Equiv.Perm (Fin M)} (hl : Lawful inner V XV)
    (h : Corresponds inner inner' V V' XV f F c τ) (order order' : Fin S → Fin M) (σ : Equiv.Perm (Fin S))
    (ho : ∀ s, τ (order' s) = order (σ s)) :
    Corresponds (orderedSet order inner) (orderedSet order' inner') V V' XV f F c σ := by
  refine ⟨h.valid, h.data, ?_, h.kl, ?_⟩
  · intro st x v hv hx e
    obtain ⟨u, hu⟩ := hl.llh_ok st x hv hx
    have e1 : (orderedSet order inner).llh st x = .ok fun s => u (order s) := by
      show (inner.llh st x >>= _) = _
      rw [hu]; rfl
    rw [e1] at e
    show (inner'.llh (F st) (f x) >>= _) = _
    rw [h.llh st x u hv hx hu, ← Except.ok.inj e]
    show Except.ok _ = Except.ok _
    congr 1
    funext s
    dsimp only
    rw [ho]
  · intro st rows scale l st' hv hr hs h0 h1 e
    have e' : inner.step st (rows.map fun r => (r.1, fun m => ∑ s, if order s = m then r.2 s else 0)) scale l = .ok st' := e
    have := h.step st _ scale l st' hv (by
      intro r hr1
      obtain ⟨r', hr2, rfl⟩ := List.mem_map.1 hr1
      refine ⟨(hr r' hr2).1, fun m => ?_⟩
      dsimp only
      refine Finset.sum_nonneg fun s _ => ?_
      split_ifs
      · exact (hr r' hr2).2 s
      · exact le_rfl) hs h0 h1 e'
    refine Eq.trans ?_ this
    show inner'.step (F st) _ scale l = inner'.step (F st) _ scale l
    rw [List.map_map, List.map_map]
    congr 1
    apply List.map_congr_left
    intro r _
    simp only [Function.comp]
    congr 1
    funext m
    show _ = ∑ s, if order s = τ m then r.2 s else 0
    rw [← Equiv.sum_comp σ fun s => if order s = τ m then r.2 s else 0]
    refine Finset.sum_congr rfl fun s _ => ?_
    rw [← ho]
    simp only [EmbeddingLike.apply_eq_iff_eq]

theorem jointSet_corresponds {M N : ℕ} {a a' : SetModel X M} {b b' : SetModel X N} {V : a.State → Prop}
    {V' : a'.State → Prop} {W : b.State → Prop} {W' : b'.State → Prop} {XV : X → Prop} {f : X → X}
    {F : a.State → a'.State} {G : b.State → b'.State} {c : ℝ} {σ : Equiv.Perm (Fin M)} {τ : Equiv.Perm (Fin N)}
    (la : Lawful a V XV) (lb : Lawful b W XV)
    (ha : Corresponds a a' V V' XV f F c σ) (hb : Corresponds b b' W W' XV f G c τ) :
    Corresponds (jointSet a b) (jointSet a' b') (fun st => V st.1 ∧ W st.2) (fun st => V' st.1 ∧ W' st.2) XV f
      (fun st => (F st.1, G st.2)) c (finSumFinEquiv.permCongr (Equiv.Perm.sumCongr σ τ)) := by
  have hσ : ∀ m, (finSumFinEquiv.permCongr (Equiv.Perm.sumCongr σ τ)) (Fin.castAdd N m) = Fin.castAdd N (σ m) := by
    intro m
    simp [Equiv.permCongr_apply]
  have hτ : ∀ m, (finSumFinEquiv.permCongr (Equiv.Perm.sumCongr σ τ)) (Fin.natAdd M m) = Fin.natAdd M (τ m) := by
    intro m
    simp [Equiv.permCongr_apply]
  refine ⟨fun st hv => ⟨ha.valid _ hv.1, hb.valid _ hv.2⟩, ha.data, ?_, ?_, ?_⟩
  · intro st x v hv hx e
    obtain ⟨u, hu⟩ := la.llh_ok st.1 x hv.1 hx
    obtain ⟨w, hw⟩ := lb.llh_ok st.2 x hv.2 hx
    have e1 : (jointSet a b).llh st x = .ok (Fin.append u w) := by
      show (a.llh st.1 x >>= _) = _
      rw [hu]
      show (b.llh st.2 x >>= _) = _
      rw [hw]; rfl
    rw [e1] at e
    rw [← Except.ok.inj e]
    show (a'.llh (F st.1) (f x) >>= _) = _
    rw [ha.llh _ _ _ hv.1 hx hu]
    show (b'.llh (G st.2) (f x) >>= _) = _
    rw [hb.llh _ _ _ hv.2 hx hw]
    show Except.ok _ = Except.ok _
    congr 1
    funext m
    refine Fin.addCases (fun m => ?_) (fun m => ?_) m
    · rw [hσ, Fin.append_left, Fin.append_left]
    · rw [hτ, Fin.append_right, Fin.append_right]
  · intro st hv
    show (a'.kl (F st.1) >>= _) = (a.kl st.1 >>= _)
    rw [ha.kl _ hv.1]
    congr 1
    funext k
    rw [hb.kl _ hv.2]
  · intro st rows scale l st' hv hr hs h0 h1 e
    obtain ⟨s, s1, -, -⟩ := la.step_ok st.1 (rows.map fun r => (r.1, fun m => r.2 (Fin.castAdd N m))) scale l hv.1 (by
      intro r hr1
      obtain ⟨r', hr2, rfl⟩ := List.mem_map.1 hr1
      exact ⟨(hr r' hr2).1, fun m => (hr r' hr2).2 _⟩) hs h0 h1
    obtain ⟨t, t1, -, -⟩ := lb.step_ok st.2 (rows.map fun r => (r.1, fun m => r.2 (Fin.natAdd M m))) scale l hv.2 (by
      intro r hr1
      obtain ⟨r', hr2, rfl⟩ := List.mem_map.1 hr1
      exact ⟨(hr r' hr2).1, fun m => (hr r' hr2).2 _⟩) hs h0 h1
    have e1 : (jointSet a b).step st rows scale l = .ok (s, t) := by
      show (a.step st.1 _ scale l >>= _) = _
      rw [s1]
      show (b.step st.2 _ scale l >>= _) = _
      rw [t1]; rfl
    rw [e1] at e
    rw [← Except.ok.inj e]
    have hs1 := ha.step _ _ _ _ _ hv.1 (by
      intro r hr1
      obtain ⟨r', hr2, rfl⟩ := List.mem_map.1 hr1
      exact ⟨(hr r' hr2).1, fun m => (hr r' hr2).2 _⟩) hs h0 h1 s1
    have ht1 := hb.step _ _ _ _ _ hv.2 (by
      intro r hr1
      obtain ⟨r', hr2, rfl⟩ := List.mem_map.1 hr1
      exact ⟨(hr r' hr2).1, fun m => (hr r' hr2).2 _⟩) hs h0 h1 t1
    show (a'.step (F st.1) _ scale l >>= _) = _
    rw [List.map_map] at hs1 ht1 ⊢
    have q1 : (rows.map ((fun r : X × (Fin (M + N) → ℝ) => (r.1, fun m => r.2 (Fin.castAdd N m))) ∘
        fun r => (f r.1, r.2 ∘ (finSumFinEquiv.permCongr (Equiv.Perm.sumCongr σ τ))))) =
        rows.map ((fun r => (f r.1, r.2 ∘ σ)) ∘ fun r => (r.1, fun m => r.2 (Fin.castAdd N m))) := by
      apply List.map_congr_left
      intro r _
      simp only [Function.comp]
      congr 1
      funext m
      simp only [Function.comp, hσ]
    rw [q1, hs1]
    show (b'.step (G st.2) _ scale l >>= _) = _
    rw [List.map_map]
    have q2 : (rows.map ((fun r : X × (Fin (M + N) → ℝ) => (r.1, fun m => r.2 (Fin.natAdd M m))) ∘
        fun r => (f r.1, r.2 ∘ (finSumFinEquiv.permCongr (Equiv.Perm.sumCongr σ τ))))) =
        rows.map ((fun r => (f r.1, r.2 ∘ τ)) ∘ fun r => (r.1, fun m => r.2 (Fin.natAdd M m))) := by
      apply List.map_congr_left
      intro r _
      simp only [Function.comp]
      congr 1
      funext m
      simp only [Function.comp, hτ]
    rw [q2, ht1]
    rfl

end Verif.VB
