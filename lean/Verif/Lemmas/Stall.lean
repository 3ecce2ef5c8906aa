import Verif.Spec.Stall
import Verif.Lemmas.VBHmm
import Verif.Props.VBTrain

/-!
# Lemmas for the steps which bring nothing
-/

namespace Verif.VB

open Real Verif.Dists Verif.DistSpec Verif.Spec Verif.Mixture Verif.Props

variable {X P : Type}

theorem eq_of_sum_nonpos {ι : Type} [Fintype ι] (f : ι → ℝ) (h0 : ∀ i, 0 ≤ f i) (h : ∑ i, f i ≤ 0) (i : ι) : f i = 0 :=
  (Finset.sum_eq_zero_iff_of_nonneg fun i _ => h0 i).1 (le_antisymm h (Finset.sum_nonneg fun i _ => h0 i)) i (Finset.mem_univ i)

theorem vec_fixed (n t : List ℝ) (h : t.length = n.length) (l : ℝ) (hl : l ≠ 0)
    (e : n = vadd n (vsmul l (vsub t n))) (l' : ℝ) : vadd n (vsmul l' (vsub t n)) = n := by
  have key : ∀ (n t : List ℝ), t.length = n.length → n = vadd n (vsmul l (vsub t n)) → t = n := by
    intro n
    induction n with
    | nil => intro t h _; exact List.length_eq_zero_iff.1 h
    | cons a n ih =>
      intro t h e
      cases t with
      | nil => simp at h
      | cons b t =>
        simp only [vadd, vsmul, vsub, List.zipWith_cons_cons, List.map_cons, List.cons.injEq] at e
        have h1 : b = a := by
          have : l * (b - a) = 0 := by linarith [e.1]
          rcases mul_eq_zero.1 this with h | h
          · exact absurd h hl
          · linarith
        rw [h1, ih t (by simpa using h) e.2]
  rw [key n t h e]
  clear key e h
  induction n with
  | nil => rfl
  | cons a n ih =>
    simp only [vadd, vsmul, vsub, List.zipWith_cons_cons, List.map_cons, List.cons.injEq] at ih ⊢
    exact ⟨by ring, ih⟩

section
variable {fam : Family X P} {V : P → Prop} {XV : X → Prop} (C : Conj fam V XV)
include C

/-- The gain of an update. -/
noncomputable def Conj.slack (c : CParam P) (p' : P) (rows : List (ℝ × X)) (scale : ℝ) : ℝ :=
  scale * (rows.map fun r => r.1 * (vdot (C.T p') (fam.stats r.2) - vdot (C.T c.post) (fam.stats r.2))).sum -
    (C.D p' c.prior - C.D c.post c.prior)

theorem Conj.stall (hsep : Separates fam V) (c : CParam P) (rows : List (ℝ × X)) (scale l : ℝ) (hc : ParamValid V c)
    (hr : ∀ r ∈ rows, 0 ≤ r.1 ∧ XV r.2) (hs : 0 ≤ scale) (h0 : 0 < l) (h1 : l ≤ 1) :
    ∃ p', fam.update c (C.acc rows scale) l = .ok ⟨c.prior, p'⟩ ∧ V p' ∧ 0 ≤ C.slack c p' rows scale ∧
      (C.slack c p' rows scale = 0 → p' = c.post ∧
        ∀ l', 0 < l' → l' ≤ 1 → fam.update c (C.acc rows scale) l' = .ok c) := by
  have sep : ∀ p q, V p → V q → C.D p q = 0 → p = q := fun p q hp hq h => hsep p q hp hq (by rw [C.kl_eq p q hp hq, h])
  obtain ⟨p', e1, v1, e2, e3⟩ := C.gain c rows scale l hc hr hs h0 h1
  have a1 : 0 ≤ C.D p' c.post := C.kl_nonneg _ _ v1 hc.2
  have a2 : 0 ≤ C.D c.post p' := C.kl_nonneg _ _ hc.2 v1
  have a3 : 0 ≤ 1 - l := by linarith
  have e3' : C.slack c p' rows scale = ((1 - l) * C.D p' c.post + C.D c.post p') / l := e3
  refine ⟨p', e1, v1, by rw [e3']; positivity, fun h => ?_⟩
  rw [e3', div_eq_zero_iff] at h
  have hz : C.D c.post p' = 0 := by
    rcases h with h | h
    · have := mul_nonneg a3 a1
      linarith
    · exact absurd h h0.ne'
  have hpp : c.post = p' := sep _ _ hc.2 v1 hz
  refine ⟨hpp.symm, fun l' hl0 hl1 => ?_⟩
  subst hpp
  obtain ⟨p'', f1, v2, f2, -⟩ := C.gain c rows scale l' hc hr hs hl0 hl1
  have hx : ∀ r ∈ rows, XV r.2 := fun r h => (hr r h).2
  have la := C.len_acc rows scale hx
  have l0 := C.len_N _ hc.1
  have ln := C.len_N _ hc.2
  rw [vec_fixed (C.N c.post) _ (by simp [la, l0, ln]) l h0.ne' e2 l'] at f2
  have b1 : 0 ≤ C.D p'' c.post := C.kl_nonneg _ _ v2 hc.2
  have b2 : 0 ≤ C.D c.post p'' := C.kl_nonneg _ _ hc.2 v2
  have hzero : ∀ t : List ℝ, vdot t (vsub (C.N c.post) (C.N c.post)) = 0 := fun t => by
    rw [vdot_vsub _ _ _ rfl, sub_self]
  have hD : C.D c.post p'' = 0 := by
    unfold Conj.D at b1 b2 ⊢
    rw [f2, hzero] at b1 b2 ⊢
    linarith
  rw [f1, ← sep _ _ hc.2 v2 hD]

end

/-! ## Sets -/

theorem familySet_strict {fam : Family X P} {V : P → Prop} {XV : X → Prop} (C : Conj fam V XV) (hsep : Separates fam V)
    (M : ℕ) : Strict (familySet fam M) (SetValid V) XV := by
  intro st rows scale l st' hv hr hs h0 h1 hst hle
  have hrow : ∀ m : Fin M, ∀ r ∈ rows.map (fun r => (r.2 m, r.1)), 0 ≤ r.1 ∧ XV r.2 := by
    intro m r h
    obtain ⟨r', h', rfl⟩ := List.mem_map.1 h
    exact ⟨(hr r' h').2 m, (hr r' h').1⟩
  choose p' e1 v1 e2 e3 using fun m : Fin M =>
    C.stall hsep (st m) (rows.map fun r => (r.2 m, r.1)) scale l (hv m) (hrow m) hs h0 h1
  have hacc : ∀ m, C.acc (rows.map fun r => (r.2 m, r.1)) scale =
      vsmul scale (wsum fam.sdim (rows.map fun r => (r.2 m, fam.stats r.1))) := fun m => by
    unfold Conj.acc
    rw [List.map_map]
    rfl
  simp only [hacc] at e1 e3
  have hs' : (familySet fam M).step st rows scale l = .ok fun m => (⟨(st m).prior, p' m⟩ : CParam P) :=
    seqFin_ok _ _ e1
  obtain rfl := Except.ok.inj (hs'.symm.trans hst)
  have hv' : SetValid V fun m => (⟨(st m).prior, p' m⟩ : CParam P) := fun m => ⟨(hv m).1, v1 m⟩
  have hl : ∀ (st : Fin M → CParam P) x, SetValid V st → XV x → (familySet fam M).llh st x =
      .ok fun m => vdot (C.T (st m).post) (fam.stats x) + C.base := by
    intro st x hv hx
    exact seqFin_ok _ _ fun m => C.llh_eq _ _ (hv m).2 hx
  have hk : ∀ st : Fin M → CParam P, SetValid V st → (familySet fam M).kl st =
      .ok (∑ m, C.D (st m).post (st m).prior) := by
    intro st hv
    show (seqFin _ >>= _) = _
    rw [seqFin_ok _ (fun m => C.D (st m).post (st m).prior) fun m => C.paramKl_eq _ (hv m)]
    rfl
  have hz : ∀ m, C.slack (st m) (p' m) (rows.map fun r => (r.2 m, r.1)) scale = 0 := by
    apply eq_of_sum_nonpos _ e2
    rw [hk _ hv', hk _ hv] at hle
    have hrows : (rows.map fun r => ∑ m, r.2 m *
        (valueOf 0 ((familySet fam M).llh (fun m => (⟨(st m).prior, p' m⟩ : CParam P)) r.1) m -
          valueOf 0 ((familySet fam M).llh st r.1) m)) =
        rows.map fun r => ∑ m, r.2 m * (vdot (C.T (p' m)) (fam.stats r.1) -
          vdot (C.T (st m).post) (fam.stats r.1)) := by
      apply List.map_congr_left
      intro r h
      rw [hl _ _ hv' (hr r h).1, hl _ _ hv (hr r h).1]
      simp only [valueOf_ok]
      exact Finset.sum_congr rfl fun m _ => by ring
    rw [hrows, sum_map_finset, Finset.mul_sum] at hle
    simp only [valueOf_ok] at hle
    unfold Conj.slack
    simp only [List.map_map, Function.comp_def]
    rw [Finset.sum_sub_distrib, Finset.sum_sub_distrib]
    linarith
  refine ⟨?_, fun l' h0' h1' => seqFin_ok _ _ fun m => (e3 m (hz m)).2 l' h0' h1'⟩
  funext m
  rw [(e3 m (hz m)).1]

theorem orderedSet_strict {M S : ℕ} (order : Fin S → Fin M) (inner : SetModel X M) (V : inner.State → Prop)
    (XV : X → Prop) (hin : Lawful inner V XV) (hst : Strict inner V XV) : Strict (orderedSet order inner) V XV := by
  intro st rows scale l st' hv hr hs h0 h1 hstep hle
  have hl : ∀ (st : inner.State) x, V st → XV x → (orderedSet order inner).llh st x =
      .ok fun s => valueOf 0 (inner.llh st x) (order s) := by
    intro st x hv hx
    obtain ⟨v, h⟩ := hin.llh_ok st x hv hx
    show (inner.llh st x >>= _) = _
    rw [h]
    rfl
  have hrow : ∀ r ∈ rows.map (fun r => (r.1, fun m => ∑ s, if order s = m then r.2 s else 0)), XV r.1 ∧ ∀ m, 0 ≤ r.2 m := by
    intro r h
    obtain ⟨r', h', rfl⟩ := List.mem_map.1 h
    refine ⟨(hr r' h').1, fun m => ?_⟩
    show 0 ≤ ∑ s, if order s = m then r'.2 s else 0
    refine Finset.sum_nonneg fun s _ => ?_
    split_ifs
    · exact (hr r' h').2 s
    · exact le_rfl
  obtain ⟨st'', e, v, -⟩ := hin.step_ok st _ scale l hv hrow hs h0 h1
  obtain rfl : st'' = st' := Except.ok.inj (e.symm.trans hstep)
  refine hst st _ scale l st'' hv hrow hs h0 h1 e (le_trans (le_of_eq ?_) hle)
  rw [List.map_map]
  congr 2
  apply List.map_congr_left
  intro r h
  rw [hl _ _ v (hr r h).1, hl _ _ hv (hr r h).1]
  simp only [valueOf_ok, Function.comp]
  simp only [Finset.sum_mul]
  rw [Finset.sum_comm]
  refine Finset.sum_congr rfl fun s _ => ?_
  rw [Finset.sum_eq_single (order s)]
  · rw [if_pos rfl]
  · intro m _ hm
    rw [if_neg (Ne.symm hm), zero_mul]
  · intro h; exact absurd (Finset.mem_univ _) h

theorem jointSet_strict {M N : ℕ} (a : SetModel X M) (b : SetModel X N) (Va : a.State → Prop)
    (Vb : b.State → Prop) (XV : X → Prop) (ha : Lawful a Va XV) (hb : Lawful b Vb XV) (sa : Strict a Va XV)
    (sb : Strict b Vb XV) : Strict (jointSet a b) (fun st => Va st.1 ∧ Vb st.2) XV := by
  intro st rows scale l st' hv hr hs h0 h1 hstep hle
  have hl : ∀ (st : a.State × b.State) x, Va st.1 ∧ Vb st.2 → XV x → (jointSet a b).llh st x =
      .ok (Fin.append (valueOf 0 (a.llh st.1 x)) (valueOf 0 (b.llh st.2 x))) := by
    intro st x hv hx
    obtain ⟨v, h⟩ := ha.llh_ok st.1 x hv.1 hx
    obtain ⟨w, h'⟩ := hb.llh_ok st.2 x hv.2 hx
    show (a.llh st.1 x >>= _) = _
    rw [h, h']
    rfl
  have hk : ∀ (st : a.State × b.State), Va st.1 ∧ Vb st.2 → (jointSet a b).kl st =
      .ok (valueOf 0 (a.kl st.1) + valueOf 0 (b.kl st.2)) := by
    intro st hv
    obtain ⟨v, h, _⟩ := ha.kl_ok st.1 hv.1
    obtain ⟨w, h', _⟩ := hb.kl_ok st.2 hv.2
    show (a.kl st.1 >>= _) = _
    rw [h, h']
    rfl
  have ra : ∀ r ∈ rows.map (fun r => (r.1, fun m => r.2 (Fin.castAdd N m))), XV r.1 ∧ ∀ m, 0 ≤ r.2 m := by
    intro r h
    obtain ⟨r', h', rfl⟩ := List.mem_map.1 h
    exact ⟨(hr r' h').1, fun m => (hr r' h').2 _⟩
  have rb : ∀ r ∈ rows.map (fun r => (r.1, fun m => r.2 (Fin.natAdd M m))), XV r.1 ∧ ∀ m, 0 ≤ r.2 m := by
    intro r h
    obtain ⟨r', h', rfl⟩ := List.mem_map.1 h
    exact ⟨(hr r' h').1, fun m => (hr r' h').2 _⟩
  obtain ⟨s, e, v, g⟩ := ha.step_ok st.1 _ scale l hv.1 ra hs h0 h1
  obtain ⟨t, e', v', g'⟩ := hb.step_ok st.2 _ scale l hv.2 rb hs h0 h1
  have hab : ∀ l s t, a.step st.1 (rows.map fun r => (r.1, fun m => r.2 (Fin.castAdd N m))) scale l = .ok s →
      b.step st.2 (rows.map fun r => (r.1, fun m => r.2 (Fin.natAdd M m))) scale l = .ok t →
      (jointSet a b).step st rows scale l = .ok (s, t) := by
    intro l s t e e'
    show (a.step st.1 _ scale l >>= _) = _
    rw [e, ok_bind, e']
    rfl
  obtain rfl := Except.ok.inj ((hab l s t e e').symm.trans hstep)
  rw [hk (s, t) ⟨v, v'⟩, hk st hv] at hle
  simp only [valueOf_ok] at hle
  have this : (rows.map fun r => ∑ m, r.2 m * (valueOf 0 ((jointSet a b).llh (s, t) r.1) m -
        valueOf 0 ((jointSet a b).llh st r.1) m)).sum =
      (rows.map fun r => ∑ m, r.2 (Fin.castAdd N m) * (valueOf 0 (a.llh s r.1) m -
        valueOf 0 (a.llh st.1 r.1) m)).sum +
      (rows.map fun r => ∑ m, r.2 (Fin.natAdd M m) * (valueOf 0 (b.llh t r.1) m -
        valueOf 0 (b.llh st.2 r.1) m)).sum := by
    rw [← List.sum_map_add]
    congr 1
    apply List.map_congr_left
    intro r h
    rw [hl _ _ ⟨v, v'⟩ (hr r h).1, hl _ _ hv (hr r h).1]
    simp only [valueOf_ok]
    rw [Fin.sum_univ_add]
    simp only [Fin.append_left, Fin.append_right]
  rw [this, mul_add] at hle
  rw [List.map_map] at g g'
  have g1 : valueOf 0 (a.kl s) - valueOf 0 (a.kl st.1) ≤ scale *
      (rows.map fun r => ∑ m, r.2 (Fin.castAdd N m) * (valueOf 0 (a.llh s r.1) m -
        valueOf 0 (a.llh st.1 r.1) m)).sum := g
  have g2 : valueOf 0 (b.kl t) - valueOf 0 (b.kl st.2) ≤ scale *
      (rows.map fun r => ∑ m, r.2 (Fin.natAdd M m) * (valueOf 0 (b.llh t r.1) m -
        valueOf 0 (b.llh st.2 r.1) m)).sum := g'
  obtain ⟨x1, x2⟩ := sa st.1 _ scale l s hv.1 ra hs h0 h1 e (by
    rw [List.map_map]
    have : scale * (rows.map fun r => ∑ m, r.2 (Fin.castAdd N m) * (valueOf 0 (a.llh s r.1) m -
        valueOf 0 (a.llh st.1 r.1) m)).sum ≤ valueOf 0 (a.kl s) - valueOf 0 (a.kl st.1) := by linarith
    exact this)
  obtain ⟨y1, y2⟩ := sb st.2 _ scale l t hv.2 rb hs h0 h1 e' (by
    rw [List.map_map]
    have : scale * (rows.map fun r => ∑ m, r.2 (Fin.natAdd M m) * (valueOf 0 (b.llh t r.1) m -
        valueOf 0 (b.llh st.2 r.1) m)).sum ≤ valueOf 0 (b.kl t) - valueOf 0 (b.kl st.2) := by linarith
    exact this)
  exact ⟨Prod.ext x1 y1, fun l' h0' h1' => hab l' _ _ (x2 l' h0' h1') (y2 l' h0' h1')⟩

theorem mixtureSet_strict {M C : ℕ} (hC2 : 2 ≤ C) (inner : SetModel X (M * C))
    (Vin : inner.State → Prop) (XV : X → Prop) (hin : Lawful inner Vin XV) (hst : Strict inner Vin XV) :
    Strict (mixtureSet M C inner) (MixSetValid inner Vin) XV := by
  have hC : 1 ≤ C := by omega
  -- the values of the calls
  have hlocal : ∀ (st : (mixtureSet M C inner).State) x, MixSetValid inner Vin st → XV x →
      mixSetOut inner st.1 st.2 x = .ok fun m => mixLocal (lwOf C (st.1 m).post)
        fun c => valueOf 0 (inner.llh st.2 x) (flatIdx m c) := by
    intro st x hv hx
    obtain ⟨v, hv1⟩ := hin.llh_ok st.2 x hv.2 hx
    unfold mixSetOut
    rw [seqFin_ok _ (fun m => lwOf C (st.1 m).post) fun m => logWeights_eq _ (hv.1 m).2.1, hv1]
    show Except.ok _ = _
    congr 1
    funext m
    rw [C44_mixture_set_agrees hC]
    rfl
  have hl : ∀ (st : (mixtureSet M C inner).State) x, MixSetValid inner Vin st → XV x →
      (mixtureSet M C inner).llh st x = .ok fun m => (mixLocal (lwOf C (st.1 m).post)
        fun c => valueOf 0 (inner.llh st.2 x) (flatIdx m c)).value := by
    intro st x hv hx
    show (mixSetOut inner st.1 st.2 x >>= _) = _
    rw [hlocal st x hv hx]
    rfl
  have hk : ∀ (st : (mixtureSet M C inner).State), MixSetValid inner Vin st →
      (mixtureSet M C inner).kl st =
        .ok (∑ m, (dirConj hC).D (st.1 m).post (st.1 m).prior + valueOf 0 (inner.kl st.2)) := by
    intro st hv
    obtain ⟨k, hk, _⟩ := hin.kl_ok st.2 hv.2
    show (seqFin _ >>= _) = _
    rw [seqFin_ok _ (fun m => (dirConj hC).D (st.1 m).post (st.1 m).prior)
      fun m => (dirConj hC).paramKl_eq _ (hv.1 m), ok_bind, hk]
    rfl
  intro st rows scale l st' hv hr hs h0 h1 hstep hle
  set ρ : X → Fin M → Fin C → ℝ := fun x m => (mixLocal (lwOf C (st.1 m).post)
    fun c => valueOf 0 (inner.llh st.2 x) (flatIdx m c)).resps with hρ
  have hρ0 : ∀ x m c, 0 ≤ ρ x m c := fun x m c => (C44_responsibilities hC _ _).1.1 c
  -- weights
  have hrow : ∀ m : Fin M, ∀ r ∈ rows.map (fun r => ((1 : ℝ), List.ofFn (jointResps (ρ r.1) r.2 m))),
      0 ≤ r.1 ∧ CountsValid C r.2 := by
    intro m r h
    obtain ⟨r', h', rfl⟩ := List.mem_map.1 h
    refine ⟨zero_le_one, by simp, ?_⟩
    intro v hv
    rw [List.mem_ofFn] at hv
    obtain ⟨c, rfl⟩ := hv
    exact mul_nonneg (hρ0 _ _ _) ((hr r' h').2 m)
  choose w e1 v1 e2 e3 using fun m : Fin M =>
    (dirConj hC).stall (dir_kl_zero hC2) (st.1 m) (rows.map fun r => ((1 : ℝ), List.ofFn (jointResps (ρ r.1) r.2 m))) scale l
      (hv.1 m) (hrow m) hs h0 h1
  -- components
  have hrow' : ∀ r ∈ rows.map (fun r => (r.1, totalResps (ρ r.1) r.2)), XV r.1 ∧ ∀ i, 0 ≤ r.2 i := by
    intro r h
    obtain ⟨r', h', rfl⟩ := List.mem_map.1 h
    exact ⟨(hr r' h').1, fun i => mul_nonneg (hρ0 _ _ _) ((hr r' h').2 _)⟩
  obtain ⟨s', s1, s2, s3⟩ := hin.step_ok st.2 (rows.map fun r => (r.1, totalResps (ρ r.1) r.2)) scale l
    hv.2 hrow' hs h0 h1
  have hv' : MixSetValid inner Vin (fun m => (⟨(st.1 m).prior, w m⟩ : CParam (List ℝ)), s') :=
    ⟨fun m => ⟨(hv.1 m).1, v1 m⟩, s2⟩
  have hall : ∀ l' (ws : Fin M → CParam (List ℝ)) s, (∀ m, (dirFam C).update (st.1 m) ((dirConj hC).acc
        (rows.map fun r => ((1 : ℝ), List.ofFn (jointResps (ρ r.1) r.2 m))) scale) l' = .ok (ws m)) →
      inner.step st.2 (rows.map fun r => (r.1, totalResps (ρ r.1) r.2)) scale l' = .ok s →
      (mixtureSet M C inner).step st rows scale l' = .ok (ws, s) := by
    intro l' ws s e1 s1
    have houts : rows.mapM (fun r => do
        let o ← mixSetOut inner st.1 st.2 r.1
        (.ok (r.1, r.2, fun m => (o m).resps) : Except Err (X × (Fin M → ℝ) × (Fin M → Fin C → ℝ)))) =
        .ok (rows.map fun r => (r.1, r.2, ρ r.1)) := by
      apply mapM_ok_map
      intro r h
      rw [hlocal st r.1 hv (hr r h).1]
      rfl
    show (rows.mapM _ >>= _) = _
    rw [houts, ok_bind, List.map_map, seqFin_ok _ ws, ok_bind]
    · show (inner.step st.2 _ scale l' >>= _) = _
      have : (rows.map ((fun o : X × (Fin M → ℝ) × (Fin M → Fin C → ℝ) =>
          (o.1, totalResps o.2.2 o.2.1)) ∘ fun r => (r.1, r.2, ρ r.1))) =
          rows.map fun r => (r.1, totalResps (ρ r.1) r.2) := rfl
      rw [this, s1]
      rfl
    · intro m
      have := e1 m
      unfold Conj.acc at this
      rw [List.map_map] at this
      rw [List.map_map]
      exact this
  obtain rfl := Except.ok.inj ((hall l _ _ e1 s1).symm.trans hstep)
  have hfin : (∀ m, (dirConj hC).slack (st.1 m) (w m)
        (rows.map fun r => ((1 : ℝ), List.ofFn (jointResps (ρ r.1) r.2 m))) scale = 0) ∧
      scale * (rows.map fun r => (∑ i, totalResps (ρ r.1) r.2 i *
        (valueOf 0 (inner.llh s' r.1) i - valueOf 0 (inner.llh st.2 r.1) i))).sum ≤
      valueOf 0 (inner.kl s') - valueOf 0 (inner.kl st.2) := by
    rw [hk _ hv', hk _ hv] at hle
    simp only [valueOf_ok] at hle
    have hA : ∀ r ∈ rows, (∑ i, totalResps (ρ r.1) r.2 i *
          (valueOf 0 (inner.llh s' r.1) i - valueOf 0 (inner.llh st.2 r.1) i)) +
        ∑ m, 1 * (vdot (dirExpStats (w m)) (catStats (List.ofFn (jointResps (ρ r.1) r.2 m))) -
          vdot (dirExpStats (st.1 m).post) (catStats (List.ofFn (jointResps (ρ r.1) r.2 m)))) ≤
        ∑ m, r.2 m * (valueOf 0 ((mixtureSet M C inner).llh (fun m => (⟨(st.1 m).prior, w m⟩ :
            CParam (List ℝ)), s') r.1) m - valueOf 0 ((mixtureSet M C inner).llh st r.1) m) := by
      intro r h
      rw [hl _ _ hv' (hr r h).1, hl _ _ hv (hr r h).1]
      simp only [valueOf_ok]
      rw [sum_flatIdx, ← Finset.sum_add_distrib]
      refine Finset.sum_le_sum fun m _ => ?_
      rw [vdot_catStats hC _ (v1 m).1, vdot_catStats hC _ (hv.1 m).2.1]
      refine le_trans (le_of_eq ?_) (mul_le_mul_of_nonneg_left
        (local_gain hC (lwOf C (st.1 m).post) (lwOf C (w m))
          (fun c => valueOf 0 (inner.llh st.2 r.1) (flatIdx m c))
          (fun c => valueOf 0 (inner.llh s' r.1) (flatIdx m c))) ((hr r h).2 m))
      rw [one_mul, ← Finset.sum_sub_distrib, ← Finset.sum_add_distrib, Finset.mul_sum]
      refine Finset.sum_congr rfl fun c _ => ?_
      rw [(C44_mixture_set_accumulate (ρ r.1) r.2 m).1 c]
      unfold jointResps
      rw [hρ]
      ring
    have hB := sum_map_le rows _ _ hA
    have hle2 := (mul_le_mul_of_nonneg_left hB hs).trans hle
    have hsplit : (rows.map fun r => (∑ i, totalResps (ρ r.1) r.2 i *
          (valueOf 0 (inner.llh s' r.1) i - valueOf 0 (inner.llh st.2 r.1) i)) +
        ∑ m, 1 * (vdot (dirExpStats (w m)) (catStats (List.ofFn (jointResps (ρ r.1) r.2 m))) -
          vdot (dirExpStats (st.1 m).post) (catStats (List.ofFn (jointResps (ρ r.1) r.2 m))))).sum =
        (rows.map fun r => (∑ i, totalResps (ρ r.1) r.2 i *
          (valueOf 0 (inner.llh s' r.1) i - valueOf 0 (inner.llh st.2 r.1) i))).sum +
        ∑ m, (rows.map fun r => 1 * (vdot (dirExpStats (w m)) (catStats (List.ofFn (jointResps (ρ r.1) r.2 m))) -
          vdot (dirExpStats (st.1 m).post) (catStats (List.ofFn (jointResps (ρ r.1) r.2 m))))).sum := by
      rw [← sum_map_finset, ← List.sum_map_add]
    rw [hsplit, mul_add, Finset.mul_sum] at hle2
    rw [List.map_map] at s3
    have s3' : valueOf 0 (inner.kl s') - valueOf 0 (inner.kl st.2) ≤ scale *
        (rows.map fun r => (∑ i, totalResps (ρ r.1) r.2 i *
          (valueOf 0 (inner.llh s' r.1) i - valueOf 0 (inner.llh st.2 r.1) i))).sum := s3
    have hsl : ∑ m, (dirConj hC).slack (st.1 m) (w m)
        (rows.map fun r => ((1 : ℝ), List.ofFn (jointResps (ρ r.1) r.2 m))) scale =
        ∑ m, scale * (rows.map fun r => 1 * (vdot (dirExpStats (w m)) (catStats (List.ofFn (jointResps (ρ r.1) r.2 m))) -
          vdot (dirExpStats (st.1 m).post) (catStats (List.ofFn (jointResps (ρ r.1) r.2 m))))).sum -
        (∑ m, (dirConj hC).D (w m) (st.1 m).prior - ∑ m, (dirConj hC).D (st.1 m).post (st.1 m).prior) := by
      rw [← Finset.sum_sub_distrib, ← Finset.sum_sub_distrib]
      refine Finset.sum_congr rfl fun m _ => ?_
      unfold Conj.slack
      rw [List.map_map]
      rfl
    have hz := Finset.sum_nonneg fun (m : Fin M) (_ : m ∈ Finset.univ) => e2 m
    refine ⟨eq_of_sum_nonpos _ e2 (by linarith), by linarith⟩
  obtain ⟨x1, x2⟩ := hst st.2 _ scale l s' hv.2 hrow' hs h0 h1 s1 (by rw [List.map_map]; exact hfin.2)
  refine ⟨Prod.ext (funext fun m => ?_) x1, fun l' h0' h1' => hall l' _ _ (fun m => ?_) (x2 l' h0' h1')⟩
  · show (⟨(st.1 m).prior, w m⟩ : CParam (List ℝ)) = st.1 m
    rw [(e3 m (hfin.1 m)).1]
  · exact (e3 m (hfin.1 m)).2 l' h0' h1'

/-! ## Whole models -/

theorem mix_stall {K : ℕ} (hK2 : 2 ≤ K) (inner : SetModel X K) (V : inner.State → Prop) (XV : X → Prop)
    (hin : Lawful inner V XV) (hst : Strict inner V XV) (st : MixState inner) (hv : MixValid inner V st) (data : List X)
    (hd : ∀ x ∈ data, XV x) (hne : data ≠ []) (datasize : ℤ) (l : ℝ) (h0 : 0 < l) (h1 : l ≤ 1) :
    ∃ st' g g', mixStep inner st data datasize l = .ok st' ∧ MixValid inner V st' ∧
      mixElbo inner st data datasize = .ok g ∧ mixElbo inner st' data datasize = .ok g' ∧ g ≤ g' ∧
      (g' ≤ g → st' = st ∧ ∀ l', 0 < l' → l' ≤ 1 → mixStep inner st data datasize l' = .ok st) := by
  have hK : 1 ≤ K := by omega
  obtain ⟨scale, hs, hspos⟩ := batchScale_pos (List.length_pos_iff.2 hne) datasize
  have hout : ∀ (st : MixState inner) x, MixValid inner V st → XV x → mixOut inner st x =
      .ok (mixLocal (lwOf K st.weights.post) (valueOf 0 (inner.llh st.comps x))) := by
    intro st x hv hx
    obtain ⟨v, h⟩ := hin.llh_ok st.comps x hv.2 hx
    unfold mixOut
    rw [logWeights_eq _ hv.1.2.1, h]
    rfl
  have hkl : ∀ st : MixState inner, MixValid inner V st → mixKl inner st =
      .ok (valueOf 0 (inner.kl st.comps) + (dirConj hK).D st.weights.post st.weights.prior) := by
    intro st hv
    obtain ⟨k, h, _⟩ := hin.kl_ok st.comps hv.2
    unfold mixKl
    rw [h, (dirConj hK).paramKl_eq _ hv.1]
    rfl
  have helbo : ∀ st : MixState inner, MixValid inner V st → mixElbo inner st data datasize =
      .ok (scale * (data.map fun x => (mixLocal (lwOf K st.weights.post)
        (valueOf 0 (inner.llh st.comps x))).value).sum -
        (valueOf 0 (inner.kl st.comps) + (dirConj hK).D st.weights.post st.weights.prior)) := by
    intro st hv
    unfold mixElbo
    rw [hs, ok_bind, mapM_ok_map _ _ data fun x h => hout st x hv (hd x h), ok_bind, hkl st hv]
    show Except.ok _ = _
    rw [List.map_map]
    rfl
  set ρ : X → Fin K → ℝ := fun x => (mixLocal (lwOf K st.weights.post)
    (valueOf 0 (inner.llh st.comps x))).resps with hρ
  have hρ0 : ∀ x k, 0 ≤ ρ x k := fun x k => (C44_responsibilities hK _ _).1.1 k
  obtain ⟨w, e1, v1, e2, e3⟩ := (dirConj hK).stall (dir_kl_zero hK2) st.weights
    (data.map fun x => ((1 : ℝ), List.ofFn (ρ x))) scale l hv.1 (by
      intro r h
      obtain ⟨x, hx, rfl⟩ := List.mem_map.1 h
      refine ⟨zero_le_one, by simp, ?_⟩
      intro v hv
      rw [List.mem_ofFn] at hv
      obtain ⟨c, rfl⟩ := hv
      exact hρ0 _ _) hspos.le h0 h1
  have hrow' : ∀ r ∈ data.map (fun x => (x, ρ x)), XV r.1 ∧ ∀ k, 0 ≤ r.2 k := by
    intro r h
    obtain ⟨x, hx, rfl⟩ := List.mem_map.1 h
    exact ⟨hd x hx, hρ0 x⟩
  obtain ⟨s', s1, s2, s3⟩ := hin.step_ok st.comps (data.map fun x => (x, ρ x)) scale l hv.2 hrow' hspos.le h0 h1
  have hv' : MixValid inner V ⟨⟨st.weights.prior, w⟩, s'⟩ := ⟨⟨hv.1.1, v1⟩, s2⟩
  have hall : ∀ l' ws s, (dirFam K).update st.weights ((dirConj hK).acc
        (data.map fun x => ((1 : ℝ), List.ofFn (ρ x))) scale) l' = .ok ws →
      inner.step st.comps (data.map fun x => (x, ρ x)) scale l' = .ok s →
      mixStep inner st data datasize l' = .ok ⟨ws, s⟩ := by
    intro l' ws s e1 s1
    unfold mixStep
    rw [hs, ok_bind, mapM_ok_map _ _ data fun x h => hout st x hv (hd x h), ok_bind]
    have hw : (dirFam K).update st.weights (vsmul scale (mixCatStats ((data.map fun x =>
        mixLocal (lwOf K st.weights.post) (valueOf 0 (inner.llh st.comps x))).map
          fun o => o.resps))) l' = .ok ws := by
      rw [← e1]
      unfold mixCatStats Conj.acc
      rw [List.map_map, List.map_map, List.map_map]
      rfl
    rw [hw, ok_bind, zipWith_map_right]
    show (inner.step st.comps (data.map fun x => (x, ρ x)) scale l' >>= _) = _
    rw [s1]
    rfl
  have hsl : (dirConj hK).slack st.weights w (data.map fun x => ((1 : ℝ), List.ofFn (ρ x))) scale =
      scale * (data.map fun x => 1 * (vdot (dirExpStats w) (catStats (List.ofFn (ρ x))) -
          vdot (dirExpStats st.weights.post) (catStats (List.ofFn (ρ x))))).sum -
        ((dirConj hK).D w st.weights.prior - (dirConj hK).D st.weights.post st.weights.prior) := by
    unfold Conj.slack
    rw [List.map_map]
    rfl
  rw [List.map_map] at s3
  have s3' : valueOf 0 (inner.kl s') - valueOf 0 (inner.kl st.comps) ≤ scale *
      (data.map fun x => ∑ k, ρ x k * (valueOf 0 (inner.llh s' x) k -
        valueOf 0 (inner.llh st.comps x) k)).sum := s3
  have hA : ∀ x ∈ data, (∑ k, ρ x k * (valueOf 0 (inner.llh s' x) k -
        valueOf 0 (inner.llh st.comps x) k)) + 1 * (vdot (dirExpStats w) (catStats (List.ofFn (ρ x))) -
        vdot (dirExpStats st.weights.post) (catStats (List.ofFn (ρ x)))) ≤
      (mixLocal (lwOf K w) (valueOf 0 (inner.llh s' x))).value -
      (mixLocal (lwOf K st.weights.post) (valueOf 0 (inner.llh st.comps x))).value := by
    intro x _
    refine le_trans (le_of_eq ?_) (local_gain hK (lwOf K st.weights.post) (lwOf K w)
      (valueOf 0 (inner.llh st.comps x)) (valueOf 0 (inner.llh s' x)))
    rw [vdot_catStats hK _ v1.1, vdot_catStats hK _ hv.1.2.1, one_mul, ← Finset.sum_sub_distrib,
      ← Finset.sum_add_distrib]
    refine Finset.sum_congr rfl fun k _ => ?_
    rw [hρ]
    ring
  have hB := mul_le_mul_of_nonneg_left (sum_map_le data _ _ hA) hspos.le
  rw [List.sum_map_add, mul_add, sum_map_sub', mul_sub] at hB
  refine ⟨⟨⟨st.weights.prior, w⟩, s'⟩, _, _, hall l _ _ e1 s1, hv', helbo st hv, helbo _ hv', ?_, fun hle => ?_⟩
  · dsimp only
    linarith
  · dsimp only at hle
    have z0 : (dirConj hK).slack st.weights w (data.map fun x => ((1 : ℝ), List.ofFn (ρ x))) scale = 0 := by linarith
    obtain ⟨y1, y2⟩ := e3 z0
    obtain ⟨x1, x2⟩ := hst st.comps _ scale l s' hv.2 hrow' hspos.le h0 h1 s1 (by
      rw [List.map_map]
      have : scale * (data.map fun x => ∑ k, ρ x k * (valueOf 0 (inner.llh s' x) k -
        valueOf 0 (inner.llh st.comps x) k)).sum ≤ valueOf 0 (inner.kl s') - valueOf 0 (inner.kl st.comps) := by linarith
      exact this)
    refine ⟨?_, fun l' h0' h1' => hall l' _ _ (y2 l' h0' h1') (x2 l' h0' h1')⟩
    rw [x1, y1]

theorem hmm_stall {S : ℕ} (g : CGraph S) (inner : SetModel X S) (V : inner.State → Prop) (XV : X → Prop)
    (hin : Lawful inner V XV) (hst : Strict inner V XV) (st : inner.State) (hv : V st) (a : ℝ) (ha : 0 ≤ a)
    (utts : List (Utt X)) (hu : ∀ u ∈ utts, (∀ t, XV (u.2 t)) ∧ Feasible g u) (scale l : ℝ)
    (hs : 0 ≤ scale) (h0 : 0 < l) (h1 : l ≤ 1) :
    ∃ st', hmmStep g inner st a utts scale l = .ok st' ∧ V st' ∧
      hmmObjective g inner a utts scale st ≤ hmmObjective g inner a utts scale st' ∧
      (hmmObjective g inner a utts scale st' ≤ hmmObjective g inner a utts scale st →
        st' = st ∧ ∀ l', 0 < l' → l' ≤ 1 → hmmStep g inner st a utts scale l' = .ok st) := by
  set rowsOf : Utt X → List (X × (Fin S → ℝ)) := fun u =>
    List.ofFn fun t => (u.2 t, fun s => a * gam g (scoresOf inner st a u) t s) with hrows
  have hrow : ∀ r ∈ (utts.map rowsOf).flatten, XV r.1 ∧ ∀ m, 0 ≤ r.2 m := by
    intro r h
    obtain ⟨L, hL, hr⟩ := List.mem_flatten.1 h
    obtain ⟨u, hu', rfl⟩ := List.mem_map.1 hL
    rw [hrows, List.mem_ofFn] at hr
    obtain ⟨t, rfl⟩ := hr
    exact ⟨(hu u hu').1 t, fun s => mul_nonneg ha (gam_nonneg g _ t s)⟩
  obtain ⟨st', e, v, gn⟩ := hin.step_ok st ((utts.map rowsOf).flatten) scale l hv hrow hs h0 h1
  have hall : ∀ l' s, inner.step st (utts.map rowsOf).flatten scale l' = .ok s →
      hmmStep g inner st a utts scale l' = .ok s := by
    intro l' s e
    unfold hmmStep
    rw [mapM_ok_map _ _ utts fun u h => hmmRows_eq g inner V XV hin st hv a u (hu u h).1 (hu u h).2]
    exact e
  refine ⟨st', hall l st' e, v, ?_⟩
  · have key : ((utts.map rowsOf).flatten.map fun r =>
          ∑ m, r.2 m * (valueOf 0 (inner.llh st' r.1) m - valueOf 0 (inner.llh st r.1) m)).sum ≤
        (utts.map fun u => log (evidence g (asLog (scoresOf inner st' a u))) -
          log (evidence g (asLog (scoresOf inner st a u)))).sum := by
      rw [sum_flatten_map]
      refine sum_map_le utts _ _ fun u h => ?_
      refine le_trans (le_of_eq ?_) (evidence_gain g (scoresOf inner st a u) (scoresOf inner st' a u)
        (evidence_pos_of_feasible g (hu u h).2 _))
      rw [hrows, List.map_ofFn, List.sum_ofFn]
      refine Finset.sum_congr rfl fun t _ => Finset.sum_congr rfl fun s _ => ?_
      unfold scoresOf
      ring
    have key' := mul_le_mul_of_nonneg_left key hs
    rw [sum_map_sub', mul_sub] at key'
    have o : ∀ st, hmmObjective g inner a utts scale st =
        scale * (utts.map fun u => log (evidence g (asLog (scoresOf inner st a u)))).sum -
          valueOf 0 (inner.kl st) := fun st => rfl
    rw [o, o]
    refine ⟨by linarith, fun hle => ?_⟩
    obtain ⟨x1, x2⟩ := hst st _ scale l st' hv hrow hs h0 h1 e (by linarith)
    exact ⟨x1, fun l' h0' h1' => hall l' _ (x2 l' h0' h1')⟩

end Verif.VB
