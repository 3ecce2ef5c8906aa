import Verif.Lemmas.VBTrain
import Verif.Props.Mixture
import Verif.Props.HMM
import Mathlib.Logic.Equiv.Fin.Basic

/-!
# Sets of models, mixtures and HMMs do not decrease their objective
-/

namespace Verif.VB

open Real Verif.Dists Verif.DistSpec Verif.Mixture Verif.Props

variable {X P : Type}

theorem ok_bind {α β : Type} (a : α) (f : α → Except Err β) : (Except.ok a >>= f) = f a := rfl

theorem valueOf_ok {α : Type} (z v : α) : valueOf z (.ok v) = v := rfl

theorem sum_map_finset {α : Type} {M : ℕ} (rows : List α) (f : α → Fin M → ℝ) :
    (rows.map fun r => ∑ m, f r m).sum = ∑ m, (rows.map fun r => f r m).sum := by
  induction rows with
  | nil => simp
  | cons r rows ih => simp only [List.map_cons, List.sum_cons, ih, Finset.sum_add_distrib]

theorem sum_map_le {α : Type} (rows : List α) (f g : α → ℝ) (h : ∀ r ∈ rows, f r ≤ g r) :
    (rows.map f).sum ≤ (rows.map g).sum := by
  induction rows with
  | nil => simp
  | cons r rows ih =>
    simp only [List.map_cons, List.sum_cons]
    exact add_le_add (h r (by simp)) (ih fun r hr => h r (by simp [hr]))

/-! ## Sets of independent conjugate parameters -/

theorem familySet_lawful {fam : Family X P} {V : P → Prop} {XV : X → Prop} (C : Conj fam V XV) (M : ℕ) :
    Lawful (familySet fam M) (SetValid V) XV := by
  have hl : ∀ (st : Fin M → CParam P) x, SetValid V st → XV x → (familySet fam M).llh st x =
      .ok fun m => vdot (C.T (st m).post) (fam.stats x) + C.base := by
    intro st x hv hx
    exact seqFin_ok _ _ fun m => C.llh_eq _ _ (hv m).2 hx
  have hk : ∀ st : Fin M → CParam P, SetValid V st → (familySet fam M).kl st =
      .ok (∑ m, C.D (st m).post (st m).prior) := by
    intro st hv
    show (seqFin _ >>= _) = _
    rw [seqFin_ok _ (fun m => C.D (st m).post (st m).prior) fun m => C.paramKl_eq _ (hv m)]
    rfl
  refine ⟨fun st x hv hx => ⟨_, hl st x hv hx⟩, fun st hv => ⟨_, hk st hv, ?_⟩, ?_⟩
  · exact Finset.sum_nonneg fun m _ => C.kl_nonneg _ _ (hv m).2 (hv m).1
  intro st rows scale l hv hr hs h0 h1
  have hrow : ∀ m : Fin M, ∀ r ∈ rows.map (fun r => (r.2 m, r.1)), 0 ≤ r.1 ∧ XV r.2 := by
    intro m r h
    obtain ⟨r', h', rfl⟩ := List.mem_map.1 h
    exact ⟨(hr r' h').2 m, (hr r' h').1⟩
  choose p' e1 v1 e2 e3 using fun m : Fin M =>
    C.gain (st m) (rows.map fun r => (r.2 m, r.1)) scale l (hv m) (hrow m) hs h0 h1
  have hv' : SetValid V fun m => (⟨(st m).prior, p' m⟩ : CParam P) := fun m => ⟨(hv m).1, v1 m⟩
  refine ⟨fun m => ⟨(st m).prior, p' m⟩, ?_, hv', ?_⟩
  · refine seqFin_ok _ _ fun m => ?_
    have := e1 m
    unfold Conj.acc at this
    rw [List.map_map] at this
    exact this
  · rw [hk _ hv', hk _ hv]
    have hrows : (rows.map fun r => ∑ m, r.2 m *
        (valueOf 0 ((familySet fam M).llh (fun m => (⟨(st m).prior, p' m⟩ : CParam P)) r.1) m -
          valueOf 0 ((familySet fam M).llh st r.1) m)) =
        rows.map fun r => ∑ m, r.2 m * (vdot (C.T (p' m)) (fam.stats r.1) -
          vdot (C.T (st m).post) (fam.stats r.1)) := by
      apply List.map_congr_left
      intro r h
      rw [hl _ _ hv' (hr r h).1, hl _ _ hv (hr r h).1]
      simp only [valueOf_ok]
      exact Finset.sum_congr rfl fun m _ => by ring
    rw [hrows, sum_map_finset, Finset.mul_sum]
    simp only [valueOf_ok]
    rw [← Finset.sum_sub_distrib]
    refine Finset.sum_le_sum fun m _ => ?_
    have := e3 m
    rw [List.map_map] at this
    have hpos : 0 ≤ ((1 - l) * C.D (p' m) (st m).post + C.D (st m).post (p' m)) / l := by
      have a1 : 0 ≤ C.D (p' m) (st m).post := C.kl_nonneg _ _ (v1 m) (hv m).2
      have a2 : 0 ≤ C.D (st m).post (p' m) := C.kl_nonneg _ _ (hv m).2 (v1 m)
      have a3 : 0 ≤ 1 - l := by linarith
      positivity
    rw [← this] at hpos
    have : (rows.map ((fun r : ℝ × X => r.1 * (vdot (C.T (p' m)) (fam.stats r.2) -
        vdot (C.T (st m).post) (fam.stats r.2))) ∘ fun r => (r.2 m, r.1))) =
        rows.map fun r => r.2 m * (vdot (C.T (p' m)) (fam.stats r.1) -
          vdot (C.T (st m).post) (fam.stats r.1)) := rfl
    rw [this] at hpos
    linarith

/-! ## Expected log-weights and the local inequality -/

/-- The expected log-weights. -/
noncomputable def lwOf (C : ℕ) (c : List ℝ) (k : Fin C) : ℝ :=
  catExpLlh c (List.ofFn fun j : Fin C => if j = k then 1 else 0)

theorem logWeights_eq {C : ℕ} (c : List ℝ) (h : c.length = C) : logWeights C c = .ok (lwOf C c) := by
  unfold logWeights
  rw [if_neg (by simpa using h)]
  rfl

theorem vdot_catStats {C : ℕ} (hC : 1 ≤ C) (c : List ℝ) (h : c.length = C) (x : Fin C → ℝ) :
    vdot (dirExpStats c) (catStats (List.ofFn x)) = ∑ k, x k * lwOf C c k := by
  obtain ⟨C, rfl⟩ : ∃ C', C = C' + 1 := ⟨C - 1, by omega⟩
  obtain ⟨c, rfl⟩ := exists_ofFn c h
  rw [vdot_comm']
  have := catExpLlh_eq c x
  unfold catExpLlh at this
  rw [this]
  refine Finset.sum_congr rfl fun k _ => ?_
  unfold lwOf
  rw [catExpLlh_eq]
  simp

/-- The local inequality: with the responsibilities of the old scores. -/
theorem local_gain {K : ℕ} (hK : 0 < K) (lw lw' f f' : Fin K → ℝ) :
    ∑ k, (mixLocal lw f).resps k * ((f' k - f k) + (lw' k - lw k)) ≤
      (mixLocal lw' f').value - (mixLocal lw f).value := by
  have h1 := (C44_responsibilities hK lw f).1
  have h2 := (C44_optimal hK lw f _ h1).2.2 rfl
  have h3 := (C44_optimal hK lw' f' _ h1).1
  rw [← h2]
  have : ∑ k, (mixLocal lw f).resps k * ((f' k - f k) + (lw' k - lw k)) =
      localObjective lw' f' (mixLocal lw f).resps - localObjective lw f (mixLocal lw f).resps := by
    unfold localObjective
    rw [add_sub_add_right_eq_sub, ← Finset.sum_sub_distrib]
    exact Finset.sum_congr rfl fun k _ => by ring
  rw [this]
  linarith

theorem sum_flatIdx {M C : ℕ} (f : Fin (M * C) → ℝ) : ∑ i, f i = ∑ m : Fin M, ∑ c : Fin C, f (flatIdx m c) := by
  rw [← Fintype.sum_prod_type' (f := fun m c => f (flatIdx m c))]
  refine (Fintype.sum_equiv finProdFinEquiv _ _ fun p => ?_).symm
  congr 1
  apply Fin.ext
  simp only [flatIdx, finProdFinEquiv_apply_val]
  ring

/-! ## Sets of mixtures -/

/-- Valid parameters of a set of mixtures. -/
def MixSetValid {M C : ℕ} (inner : SetModel X (M * C)) (Vin : inner.State → Prop)
    (st : (mixtureSet M C inner).State) : Prop := SetValid (DirValid C) st.1 ∧ Vin st.2

theorem mixtureSet_lawful {M C : ℕ} (hC : 1 ≤ C) (inner : SetModel X (M * C))
    (Vin : inner.State → Prop) (XV : X → Prop) (hin : Lawful inner Vin XV) :
    Lawful (mixtureSet M C inner) (MixSetValid inner Vin) XV := by
  -- the values of the calls
  have hlocal : ∀ (st : (mixtureSet M C inner).State) x, MixSetValid inner Vin st → XV x →
      mixSetOut inner st.1 st.2 x = .ok fun m => mixLocal (lwOf C (st.1 m).post)
        fun c => valueOf 0 (inner.llh st.2 x) (flatIdx m c) := by
    intro st x hv hx
    obtain ⟨v, hv1⟩ := hin.llh_ok st.2 x hv.2 hx
    unfold mixSetOut
    rw [seqFin_ok _ (fun m => lwOf C (st.1 m).post) fun m => logWeights_eq _ (hv.1 m).2.1, hv1]
    show Except.ok _ = _
    congr 1
    funext m
    rw [C44_mixture_set_agrees hC]
    rfl
  have hl : ∀ (st : (mixtureSet M C inner).State) x, MixSetValid inner Vin st → XV x →
      (mixtureSet M C inner).llh st x = .ok fun m => (mixLocal (lwOf C (st.1 m).post)
        fun c => valueOf 0 (inner.llh st.2 x) (flatIdx m c)).value := by
    intro st x hv hx
    show (mixSetOut inner st.1 st.2 x >>= _) = _
    rw [hlocal st x hv hx]
    rfl
  have hk : ∀ (st : (mixtureSet M C inner).State), MixSetValid inner Vin st →
      (mixtureSet M C inner).kl st =
        .ok (∑ m, (dirConj hC).D (st.1 m).post (st.1 m).prior + valueOf 0 (inner.kl st.2)) := by
    intro st hv
    obtain ⟨k, hk, _⟩ := hin.kl_ok st.2 hv.2
    show (seqFin _ >>= _) = _
    rw [seqFin_ok _ (fun m => (dirConj hC).D (st.1 m).post (st.1 m).prior)
      fun m => (dirConj hC).paramKl_eq _ (hv.1 m), ok_bind, hk]
    rfl
  refine ⟨fun st x hv hx => ⟨_, hl st x hv hx⟩, fun st hv => ⟨_, hk st hv, ?_⟩, ?_⟩
  · obtain ⟨k, hk, h0⟩ := hin.kl_ok st.2 hv.2
    rw [hk]
    exact add_nonneg (Finset.sum_nonneg fun m _ => (dirConj hC).kl_nonneg _ _ (hv.1 m).2 (hv.1 m).1) h0
  intro st rows scale l hv hr hs h0 h1
  set ρ : X → Fin M → Fin C → ℝ := fun x m => (mixLocal (lwOf C (st.1 m).post)
    fun c => valueOf 0 (inner.llh st.2 x) (flatIdx m c)).resps with hρ
  have hρ0 : ∀ x m c, 0 ≤ ρ x m c := fun x m c => (C44_responsibilities hC _ _).1.1 c
  -- weights
  have hrow : ∀ m : Fin M, ∀ r ∈ rows.map (fun r => ((1 : ℝ), List.ofFn (jointResps (ρ r.1) r.2 m))),
      0 ≤ r.1 ∧ CountsValid C r.2 := by
    intro m r h
    obtain ⟨r', h', rfl⟩ := List.mem_map.1 h
    refine ⟨zero_le_one, by simp, ?_⟩
    intro v hv
    rw [List.mem_ofFn] at hv
    obtain ⟨c, rfl⟩ := hv
    exact mul_nonneg (hρ0 _ _ _) ((hr r' h').2 m)
  choose w e1 v1 e2 e3 using fun m : Fin M =>
    (dirConj hC).gain (st.1 m) (rows.map fun r => ((1 : ℝ), List.ofFn (jointResps (ρ r.1) r.2 m))) scale l
      (hv.1 m) (hrow m) hs h0 h1
  -- components
  obtain ⟨s', s1, s2, s3⟩ := hin.step_ok st.2 (rows.map fun r => (r.1, totalResps (ρ r.1) r.2)) scale l
    hv.2 (by
      intro r h
      obtain ⟨r', h', rfl⟩ := List.mem_map.1 h
      exact ⟨(hr r' h').1, fun i => mul_nonneg (hρ0 _ _ _) ((hr r' h').2 _)⟩) hs h0 h1
  have hv' : MixSetValid inner Vin (fun m => (⟨(st.1 m).prior, w m⟩ : CParam (List ℝ)), s') :=
    ⟨fun m => ⟨(hv.1 m).1, v1 m⟩, s2⟩
  refine ⟨(fun m => ⟨(st.1 m).prior, w m⟩, s'), ?_, hv', ?_⟩
  · have houts : rows.mapM (fun r => do
        let o ← mixSetOut inner st.1 st.2 r.1
        (.ok (r.1, r.2, fun m => (o m).resps) : Except Err (X × (Fin M → ℝ) × (Fin M → Fin C → ℝ)))) =
        .ok (rows.map fun r => (r.1, r.2, ρ r.1)) := by
      apply mapM_ok_map
      intro r h
      rw [hlocal st r.1 hv (hr r h).1]
      rfl
    show (rows.mapM _ >>= _) = _
    rw [houts, ok_bind, List.map_map, seqFin_ok _ (fun m => (⟨(st.1 m).prior, w m⟩ : CParam (List ℝ))), ok_bind]
    · show (inner.step st.2 _ scale l >>= _) = _
      have : (rows.map ((fun o : X × (Fin M → ℝ) × (Fin M → Fin C → ℝ) =>
          (o.1, totalResps o.2.2 o.2.1)) ∘ fun r => (r.1, r.2, ρ r.1))) =
          rows.map fun r => (r.1, totalResps (ρ r.1) r.2) := rfl
      rw [this, s1]
      rfl
    · intro m
      have := e1 m
      unfold Conj.acc at this
      rw [List.map_map] at this
      rw [List.map_map]
      exact this
  · rw [hk _ hv', hk _ hv]
    simp only [valueOf_ok]
    have hA : ∀ r ∈ rows, (∑ i, totalResps (ρ r.1) r.2 i *
          (valueOf 0 (inner.llh s' r.1) i - valueOf 0 (inner.llh st.2 r.1) i)) +
        ∑ m, 1 * (vdot (dirExpStats (w m)) (catStats (List.ofFn (jointResps (ρ r.1) r.2 m))) -
          vdot (dirExpStats (st.1 m).post) (catStats (List.ofFn (jointResps (ρ r.1) r.2 m)))) ≤
        ∑ m, r.2 m * (valueOf 0 ((mixtureSet M C inner).llh (fun m => (⟨(st.1 m).prior, w m⟩ :
            CParam (List ℝ)), s') r.1) m - valueOf 0 ((mixtureSet M C inner).llh st r.1) m) := by
      intro r h
      rw [hl _ _ hv' (hr r h).1, hl _ _ hv (hr r h).1]
      simp only [valueOf_ok]
      rw [sum_flatIdx, ← Finset.sum_add_distrib]
      refine Finset.sum_le_sum fun m _ => ?_
      rw [vdot_catStats hC _ (v1 m).1, vdot_catStats hC _ (hv.1 m).2.1]
      refine le_trans (le_of_eq ?_) (mul_le_mul_of_nonneg_left
        (local_gain hC (lwOf C (st.1 m).post) (lwOf C (w m))
          (fun c => valueOf 0 (inner.llh st.2 r.1) (flatIdx m c))
          (fun c => valueOf 0 (inner.llh s' r.1) (flatIdx m c))) ((hr r h).2 m))
      rw [one_mul, ← Finset.sum_sub_distrib, ← Finset.sum_add_distrib, Finset.mul_sum]
      refine Finset.sum_congr rfl fun c _ => ?_
      rw [(C44_mixture_set_accumulate (ρ r.1) r.2 m).1 c]
      unfold jointResps
      rw [hρ]
      ring
    have hB := sum_map_le rows _ _ hA
    have hC2 := mul_le_mul_of_nonneg_left hB hs
    refine le_trans ?_ hC2
    have hsplit : (rows.map fun r => (∑ i, totalResps (ρ r.1) r.2 i *
          (valueOf 0 (inner.llh s' r.1) i - valueOf 0 (inner.llh st.2 r.1) i)) +
        ∑ m, 1 * (vdot (dirExpStats (w m)) (catStats (List.ofFn (jointResps (ρ r.1) r.2 m))) -
          vdot (dirExpStats (st.1 m).post) (catStats (List.ofFn (jointResps (ρ r.1) r.2 m))))).sum =
        (rows.map fun r => (∑ i, totalResps (ρ r.1) r.2 i *
          (valueOf 0 (inner.llh s' r.1) i - valueOf 0 (inner.llh st.2 r.1) i))).sum +
        ∑ m, (rows.map fun r => 1 * (vdot (dirExpStats (w m)) (catStats (List.ofFn (jointResps (ρ r.1) r.2 m))) -
          vdot (dirExpStats (st.1 m).post) (catStats (List.ofFn (jointResps (ρ r.1) r.2 m))))).sum := by
      rw [← sum_map_finset, ← List.sum_map_add]
    rw [hsplit, mul_add, Finset.mul_sum]
    rw [List.map_map] at s3
    have s3' : valueOf 0 (inner.kl s') - valueOf 0 (inner.kl st.2) ≤ scale *
        (rows.map fun r => (∑ i, totalResps (ρ r.1) r.2 i *
          (valueOf 0 (inner.llh s' r.1) i - valueOf 0 (inner.llh st.2 r.1) i))).sum := s3
    have hW : ∑ m, (dirConj hC).D (w m) (st.1 m).prior -
        ∑ m, (dirConj hC).D (st.1 m).post (st.1 m).prior ≤
        ∑ m, scale * (rows.map fun r => 1 * (vdot (dirExpStats (w m)) (catStats (List.ofFn (jointResps (ρ r.1) r.2 m))) -
          vdot (dirExpStats (st.1 m).post) (catStats (List.ofFn (jointResps (ρ r.1) r.2 m))))).sum := by
      rw [← Finset.sum_sub_distrib]
      refine Finset.sum_le_sum fun m _ => ?_
      have := e3 m
      rw [List.map_map] at this
      have hpos : 0 ≤ ((1 - l) * (dirConj hC).D (w m) (st.1 m).post +
          (dirConj hC).D (st.1 m).post (w m)) / l := by
        have a1 : 0 ≤ (dirConj hC).D (w m) (st.1 m).post := (dirConj hC).kl_nonneg _ _ (v1 m) (hv.1 m).2
        have a2 : 0 ≤ (dirConj hC).D (st.1 m).post (w m) := (dirConj hC).kl_nonneg _ _ (hv.1 m).2 (v1 m)
        have a3 : 0 ≤ 1 - l := by linarith
        positivity
      rw [← this] at hpos
      exact sub_nonneg.1 hpos
    linarith

/-! ## Reordered and concatenated sets -/

theorem orderedSet_lawful {M S : ℕ} (order : Fin S → Fin M) (inner : SetModel X M)
    (V : inner.State → Prop) (XV : X → Prop) (hin : Lawful inner V XV) :
    Lawful (orderedSet order inner) V XV := by
  have hl : ∀ (st : inner.State) x, V st → XV x → (orderedSet order inner).llh st x =
      .ok fun s => valueOf 0 (inner.llh st x) (order s) := by
    intro st x hv hx
    obtain ⟨v, h⟩ := hin.llh_ok st x hv hx
    show (inner.llh st x >>= _) = _
    rw [h]
    rfl
  refine ⟨fun st x hv hx => ⟨_, hl st x hv hx⟩, hin.kl_ok, ?_⟩
  intro st rows scale l hv hr hs h0 h1
  obtain ⟨st', e, v, g⟩ := hin.step_ok st
    (rows.map fun r => (r.1, fun m => ∑ s, if order s = m then r.2 s else 0)) scale l hv (by
      intro r h
      obtain ⟨r', h', rfl⟩ := List.mem_map.1 h
      refine ⟨(hr r' h').1, fun m => ?_⟩
      show 0 ≤ ∑ s, if order s = m then r'.2 s else 0
      refine Finset.sum_nonneg fun s _ => ?_
      split_ifs
      · exact (hr r' h').2 s
      · exact le_rfl) hs h0 h1
  refine ⟨st', e, v, g.trans (le_of_eq ?_)⟩
  rw [List.map_map]
  congr 2
  apply List.map_congr_left
  intro r h
  rw [hl _ _ v (hr r h).1, hl _ _ hv (hr r h).1]
  simp only [valueOf_ok, Function.comp]
  simp only [Finset.sum_mul]
  rw [Finset.sum_comm]
  refine Finset.sum_congr rfl fun s _ => ?_
  rw [Finset.sum_eq_single (order s)]
  · rw [if_pos rfl]
  · intro m _ hm
    rw [if_neg (Ne.symm hm), zero_mul]
  · intro h; exact absurd (Finset.mem_univ _) h

theorem jointSet_lawful {M N : ℕ} (a : SetModel X M) (b : SetModel X N) (Va : a.State → Prop)
    (Vb : b.State → Prop) (XV : X → Prop) (ha : Lawful a Va XV) (hb : Lawful b Vb XV) :
    Lawful (jointSet a b) (fun st => Va st.1 ∧ Vb st.2) XV := by
  have hl : ∀ (st : a.State × b.State) x, Va st.1 ∧ Vb st.2 → XV x → (jointSet a b).llh st x =
      .ok (Fin.append (valueOf 0 (a.llh st.1 x)) (valueOf 0 (b.llh st.2 x))) := by
    intro st x hv hx
    obtain ⟨v, h⟩ := ha.llh_ok st.1 x hv.1 hx
    obtain ⟨w, h'⟩ := hb.llh_ok st.2 x hv.2 hx
    show (a.llh st.1 x >>= _) = _
    rw [h, h']
    rfl
  have hk : ∀ (st : a.State × b.State), Va st.1 ∧ Vb st.2 → (jointSet a b).kl st =
      .ok (valueOf 0 (a.kl st.1) + valueOf 0 (b.kl st.2)) := by
    intro st hv
    obtain ⟨v, h, _⟩ := ha.kl_ok st.1 hv.1
    obtain ⟨w, h', _⟩ := hb.kl_ok st.2 hv.2
    show (a.kl st.1 >>= _) = _
    rw [h, h']
    rfl
  refine ⟨fun st x hv hx => ⟨_, hl st x hv hx⟩, fun st hv => ⟨_, hk st hv, ?_⟩, ?_⟩
  · obtain ⟨v, h, h0⟩ := ha.kl_ok st.1 hv.1
    obtain ⟨w, h', h0'⟩ := hb.kl_ok st.2 hv.2
    rw [h, h']
    exact add_nonneg h0 h0'
  intro st rows scale l hv hr hs h0 h1
  obtain ⟨s, e, v, g⟩ := ha.step_ok st.1 (rows.map fun r => (r.1, fun m => r.2 (Fin.castAdd N m)))
    scale l hv.1 (by
      intro r h
      obtain ⟨r', h', rfl⟩ := List.mem_map.1 h
      exact ⟨(hr r' h').1, fun m => (hr r' h').2 _⟩) hs h0 h1
  obtain ⟨t, e', v', g'⟩ := hb.step_ok st.2 (rows.map fun r => (r.1, fun m => r.2 (Fin.natAdd M m)))
    scale l hv.2 (by
      intro r h
      obtain ⟨r', h', rfl⟩ := List.mem_map.1 h
      exact ⟨(hr r' h').1, fun m => (hr r' h').2 _⟩) hs h0 h1
  refine ⟨(s, t), ?_, ⟨v, v'⟩, ?_⟩
  · show (a.step st.1 _ scale l >>= _) = _
    rw [e, ok_bind, e']
    rfl
  · rw [hk (s, t) ⟨v, v'⟩, hk st hv]
    simp only [valueOf_ok]
    rw [List.map_map] at g g'
    have : (rows.map fun r => ∑ m, r.2 m * (valueOf 0 ((jointSet a b).llh (s, t) r.1) m -
          valueOf 0 ((jointSet a b).llh st r.1) m)).sum =
        (rows.map fun r => ∑ m, r.2 (Fin.castAdd N m) * (valueOf 0 (a.llh s r.1) m -
          valueOf 0 (a.llh st.1 r.1) m)).sum +
        (rows.map fun r => ∑ m, r.2 (Fin.natAdd M m) * (valueOf 0 (b.llh t r.1) m -
          valueOf 0 (b.llh st.2 r.1) m)).sum := by
      rw [← List.sum_map_add]
      congr 1
      apply List.map_congr_left
      intro r h
      rw [hl _ _ ⟨v, v'⟩ (hr r h).1, hl _ _ hv (hr r h).1]
      simp only [valueOf_ok]
      rw [Fin.sum_univ_add]
      simp only [Fin.append_left, Fin.append_right]
    rw [this, mul_add]
    have g1 : valueOf 0 (a.kl s) - valueOf 0 (a.kl st.1) ≤ scale *
        (rows.map fun r => ∑ m, r.2 (Fin.castAdd N m) * (valueOf 0 (a.llh s r.1) m -
          valueOf 0 (a.llh st.1 r.1) m)).sum := g
    have g2 : valueOf 0 (b.kl t) - valueOf 0 (b.kl st.2) ≤ scale *
        (rows.map fun r => ∑ m, r.2 (Fin.natAdd M m) * (valueOf 0 (b.llh t r.1) m -
          valueOf 0 (b.llh st.2 r.1) m)).sum := g'
    linarith

/-! ## Mixtures -/

/-- Valid parameters of a mixture. -/
def MixValid {K : ℕ} (inner : SetModel X K) (V : inner.State → Prop) (st : MixState inner) : Prop :=
  ParamValid (DirValid K) st.weights ∧ V st.comps

theorem batchScale_pos {mb : ℕ} (h : 0 < mb) (datasize : ℤ) :
    ∃ s, batchScale mb datasize = .ok s ∧ 0 < s := by
  unfold batchScale
  rw [if_neg (by omega)]
  refine ⟨_, rfl, ?_⟩
  have hm : (0 : ℝ) < mb := by exact_mod_cast h
  split_ifs with hd
  · push_cast; positivity
  · have : (0 : ℝ) < (datasize : ℝ) := by exact_mod_cast (not_le.1 hd)
    positivity

theorem zipWith_map_right {α β γ : Type} (f : α → β → γ) (g : α → β) (l : List α) :
    List.zipWith f l (l.map g) = l.map fun a => f a (g a) := by
  induction l with
  | nil => rfl
  | cons a l ih => simp [ih]

theorem mix_step {K : ℕ} (hK : 1 ≤ K) (inner : SetModel X K) (V : inner.State → Prop) (XV : X → Prop)
    (hin : Lawful inner V XV) (st : MixState inner) (hv : MixValid inner V st) (data : List X)
    (hd : ∀ x ∈ data, XV x) (hne : data ≠ []) (datasize : ℤ) (l : ℝ) (h0 : 0 < l) (h1 : l ≤ 1) :
    ∃ st' g g', mixStep inner st data datasize l = .ok st' ∧ MixValid inner V st' ∧
      mixElbo inner st data datasize = .ok g ∧ mixElbo inner st' data datasize = .ok g' ∧ g ≤ g' := by
  obtain ⟨scale, hs, hspos⟩ := batchScale_pos (List.length_pos_iff.2 hne) datasize
  have hout : ∀ (st : MixState inner) x, MixValid inner V st → XV x → mixOut inner st x =
      .ok (mixLocal (lwOf K st.weights.post) (valueOf 0 (inner.llh st.comps x))) := by
    intro st x hv hx
    obtain ⟨v, h⟩ := hin.llh_ok st.comps x hv.2 hx
    unfold mixOut
    rw [logWeights_eq _ hv.1.2.1, h]
    rfl
  have hkl : ∀ st : MixState inner, MixValid inner V st → mixKl inner st =
      .ok (valueOf 0 (inner.kl st.comps) + (dirConj hK).D st.weights.post st.weights.prior) := by
    intro st hv
    obtain ⟨k, h, _⟩ := hin.kl_ok st.comps hv.2
    unfold mixKl
    rw [h, (dirConj hK).paramKl_eq _ hv.1]
    rfl
  have helbo : ∀ st : MixState inner, MixValid inner V st → mixElbo inner st data datasize =
      .ok (scale * (data.map fun x => (mixLocal (lwOf K st.weights.post)
        (valueOf 0 (inner.llh st.comps x))).value).sum -
        (valueOf 0 (inner.kl st.comps) + (dirConj hK).D st.weights.post st.weights.prior)) := by
    intro st hv
    unfold mixElbo
    rw [hs, ok_bind, mapM_ok_map _ _ data fun x h => hout st x hv (hd x h), ok_bind, hkl st hv]
    show Except.ok _ = _
    rw [List.map_map]
    rfl
  set ρ : X → Fin K → ℝ := fun x => (mixLocal (lwOf K st.weights.post)
    (valueOf 0 (inner.llh st.comps x))).resps with hρ
  have hρ0 : ∀ x k, 0 ≤ ρ x k := fun x k => (C44_responsibilities hK _ _).1.1 k
  obtain ⟨w, e1, v1, e2, e3⟩ := (dirConj hK).gain st.weights
    (data.map fun x => ((1 : ℝ), List.ofFn (ρ x))) scale l hv.1 (by
      intro r h
      obtain ⟨x, hx, rfl⟩ := List.mem_map.1 h
      refine ⟨zero_le_one, by simp, ?_⟩
      intro v hv
      rw [List.mem_ofFn] at hv
      obtain ⟨c, rfl⟩ := hv
      exact hρ0 _ _) hspos.le h0 h1
  obtain ⟨s', s1, s2, s3⟩ := hin.step_ok st.comps (data.map fun x => (x, ρ x)) scale l hv.2 (by
    intro r h
    obtain ⟨x, hx, rfl⟩ := List.mem_map.1 h
    exact ⟨hd x hx, hρ0 x⟩) hspos.le h0 h1
  have hv' : MixValid inner V ⟨⟨st.weights.prior, w⟩, s'⟩ := ⟨⟨hv.1.1, v1⟩, s2⟩
  refine ⟨⟨⟨st.weights.prior, w⟩, s'⟩, _, _, ?_, hv', helbo st hv, helbo _ hv', ?_⟩
  · unfold mixStep
    rw [hs, ok_bind, mapM_ok_map _ _ data fun x h => hout st x hv (hd x h), ok_bind]
    have hw : (dirFam K).update st.weights (vsmul scale (mixCatStats ((data.map fun x =>
        mixLocal (lwOf K st.weights.post) (valueOf 0 (inner.llh st.comps x))).map
          fun o => o.resps))) l = .ok ⟨st.weights.prior, w⟩ := by
      rw [← e1]
      unfold mixCatStats Conj.acc
      rw [List.map_map, List.map_map, List.map_map]
      rfl
    rw [hw, ok_bind, zipWith_map_right]
    show (inner.step st.comps (data.map fun x => (x, ρ x)) scale l >>= _) = _
    rw [s1]
    rfl
  · rw [List.map_map] at s3 e3
    have s3' : valueOf 0 (inner.kl s') - valueOf 0 (inner.kl st.comps) ≤ scale *
        (data.map fun x => ∑ k, ρ x k * (valueOf 0 (inner.llh s' x) k -
          valueOf 0 (inner.llh st.comps x) k)).sum := s3
    have hpos : 0 ≤ ((1 - l) * (dirConj hK).D w st.weights.post +
        (dirConj hK).D st.weights.post w) / l := by
      have a1 : 0 ≤ (dirConj hK).D w st.weights.post := (dirConj hK).kl_nonneg _ _ v1 hv.1.2
      have a2 : 0 ≤ (dirConj hK).D st.weights.post w := (dirConj hK).kl_nonneg _ _ hv.1.2 v1
      have a3 : 0 ≤ 1 - l := by linarith
      positivity
    rw [← e3] at hpos
    have e3' : (dirConj hK).D w st.weights.prior - (dirConj hK).D st.weights.post st.weights.prior ≤
        scale * (data.map fun x => 1 * (vdot (dirExpStats w) (catStats (List.ofFn (ρ x))) -
          vdot (dirExpStats st.weights.post) (catStats (List.ofFn (ρ x))))).sum := sub_nonneg.1 hpos
    have hA : ∀ x ∈ data, (∑ k, ρ x k * (valueOf 0 (inner.llh s' x) k -
          valueOf 0 (inner.llh st.comps x) k)) + 1 * (vdot (dirExpStats w) (catStats (List.ofFn (ρ x))) -
          vdot (dirExpStats st.weights.post) (catStats (List.ofFn (ρ x)))) ≤
        (mixLocal (lwOf K w) (valueOf 0 (inner.llh s' x))).value -
        (mixLocal (lwOf K st.weights.post) (valueOf 0 (inner.llh st.comps x))).value := by
      intro x _
      refine le_trans (le_of_eq ?_) (local_gain hK (lwOf K st.weights.post) (lwOf K w)
        (valueOf 0 (inner.llh st.comps x)) (valueOf 0 (inner.llh s' x)))
      rw [vdot_catStats hK _ v1.1, vdot_catStats hK _ hv.1.2.1, one_mul, ← Finset.sum_sub_distrib,
        ← Finset.sum_add_distrib]
      refine Finset.sum_congr rfl fun k _ => ?_
      rw [hρ]
      ring
    have hB := mul_le_mul_of_nonneg_left (sum_map_le data _ _ hA) hspos.le
    rw [List.sum_map_add, mul_add, sum_map_sub', mul_sub] at hB
    dsimp only
    linarith

/-! ## HMMs -/

/-- Jensen's inequality for the log of a weighted sum of exponentials. -/
theorem log_sum_exp_gain {ι : Type} [Fintype ι] (b f f' : ι → ℝ) (hb : ∀ i, 0 ≤ b i)
    (hE : 0 < ∑ i, b i * exp (f i)) :
    ∑ i, b i * exp (f i) / (∑ j, b j * exp (f j)) * (f' i - f i) ≤
      log (∑ i, b i * exp (f' i)) - log (∑ i, b i * exp (f i)) := by
  set E := ∑ i, b i * exp (f i) with hEdef
  set q : ι → ℝ := fun i => b i * exp (f i) / E with hq
  have hq0 : ∀ i, 0 ≤ q i := fun i => div_nonneg (mul_nonneg (hb i) (exp_pos _).le) hE.le
  have hq1 : ∑ i, q i = 1 := by
    rw [hq, ← Finset.sum_div, ← hEdef, div_self hE.ne']
  set μ := ∑ i, q i * (f' i - f i) with hμ
  have h1 : exp μ ≤ ∑ i, q i * exp (f' i - f i) := by
    have h2 : ∀ i, q i * (exp μ * ((f' i - f i - μ) + 1)) ≤ q i * exp (f' i - f i) := by
      intro i
      refine mul_le_mul_of_nonneg_left ?_ (hq0 i)
      have := mul_le_mul_of_nonneg_left (add_one_le_exp (f' i - f i - μ)) (exp_pos μ).le
      rwa [← exp_add, add_sub_cancel] at this
    have h3 := Finset.sum_le_sum (s := Finset.univ) fun i _ => h2 i
    refine le_trans (le_of_eq ?_) h3
    have : ∀ i, q i * (exp μ * ((f' i - f i - μ) + 1)) =
        exp μ * (q i * (f' i - f i)) + exp μ * (1 - μ) * q i := fun i => by ring
    rw [Finset.sum_congr rfl fun i _ => this i, Finset.sum_add_distrib, ← Finset.mul_sum,
      ← Finset.mul_sum, hq1, ← hμ]
    ring
  have h4 : ∑ i, q i * exp (f' i - f i) = (∑ i, b i * exp (f' i)) / E := by
    rw [Finset.sum_div]
    refine Finset.sum_congr rfl fun i _ => ?_
    rw [hq, exp_sub]
    have := (exp_pos (f i)).ne'
    field_simp
  rw [h4] at h1
  have hpos : 0 < (∑ i, b i * exp (f' i)) / E := lt_of_lt_of_le (exp_pos _) h1
  have hpos' : 0 < ∑ i, b i * exp (f' i) := by
    have := mul_pos hpos hE
    rwa [div_mul_cancel₀ _ hE.ne'] at this
  rw [← log_div hpos'.ne' hE.ne', le_log_iff_exp_le hpos]
  exact h1

end Verif.VB
