import Verif.Lemmas.EvidenceSets
import Verif.Lemmas.VBHmm

/-!
# Mixtures and HMMs bound the evidence from below
-/

namespace Verif.VB

open Real MeasureTheory ProbabilityTheory Verif.Dists Verif.DistSpec Verif.Props Verif.Mixture Verif.Spec
open scoped ENNReal

variable {X P : Type}

theorem bind_ok {α β : Type} {x : Except Err α} {f : α → Except Err β} {b : β} (h : (x >>= f) = .ok b) :
    ∃ a, x = .ok a ∧ f a = .ok b := by
  cases x with
  | error e => exact absurd h (by simp [bind, Except.bind])
  | ok a => exact ⟨a, rfl, h⟩

theorem oneHot_counts {D : ℕ} (x : List ℝ) (h : OneHot D x) : CountsValid D x := by
  obtain ⟨k, rfl⟩ := h
  refine ⟨by simp, fun v hv => ?_⟩
  rw [List.mem_ofFn] at hv
  obtain ⟨j, rfl⟩ := hv
  split_ifs <;> norm_num

/-- The one-hot vector of a category. -/
def hot {D : ℕ} (k : Fin D) : List ℝ := List.ofFn fun j : Fin D => if j = k then 1 else 0

theorem dir_llh_hot {C : ℕ} (hC : 1 ≤ C) (c : CParam (List ℝ)) (h : DirValid C c.post) (k : Fin C) :
    (dirFam C).llh c (hot k) = .ok (lwOf C c.post k) := by
  rw [(dirConj hC).llh_eq c (hot k) h (oneHot_counts _ ⟨k, rfl⟩)]
  congr 1
  show vdot (dirExpStats c.post) (catStats (hot k)) + 0 = _
  unfold hot
  rw [vdot_catStats hC _ h.1, add_zero]
  simp

/-- The weights of a set of mixtures. -/
theorem weights_bound {M C : ℕ} (hC : 1 ≤ C) (w : Fin M → CParam (List ℝ)) (hw : SetValid (DirValid C) w)
    (L : List (Fin M × Fin C)) :
    ENNReal.ofReal (exp ((L.map fun r => lwOf C (w r.1).post r.2).sum -
        valueOf 0 ((familySet (dirFam C) M).kl w))) ≤
      ∫⁻ θ : Fin M → Fin C → ℝ, (L.map fun r => ENNReal.ofReal (θ r.1 r.2)).prod
        ∂(Measure.pi fun m => dirichletLaw fun c : Fin C => (w m).prior.getD c 0) ∧
    ∫⁻ θ : Fin M → Fin C → ℝ, (L.map fun r => ENNReal.ofReal (θ r.1 r.2)).prod
        ∂(Measure.pi fun m => dirichletLaw fun c : Fin C => (w m).prior.getD c 0) ≠ ⊤ := by
  have B := familySet_bounds (dirConj hC) (dir_marg hC) oneHot_counts M
  have hx : ∀ r ∈ L.map (fun r => (hot r.2, r.1)), OneHot C r.1 := by
    intro r h
    obtain ⟨r', _, rfl⟩ := List.mem_map.1 h
    exact ⟨r'.2, rfl⟩
  have hE : rowsEvidence (familyGen (dirGen C) M) w (L.map fun r => (hot r.2, r.1)) =
      ∫⁻ θ : Fin M → Fin C → ℝ, (L.map fun r => ENNReal.ofReal (θ r.1 r.2)).prod
        ∂(Measure.pi fun m => dirichletLaw fun c : Fin C => (w m).prior.getD c 0) := by
    refine lintegral_congr fun θ => ?_
    rw [List.map_map]
    congr 1
    exact List.map_congr_left fun r _ => oneHot_dens r.2 (θ r.1)
  have h1 := B.bound w _ hw hx
  have h2 := B.finite w _ hw hx
  have hl : ((L.map fun r => (hot r.2, r.1)).map fun r =>
      valueOf 0 ((familySet (dirFam C) M).llh w r.1) r.2) = L.map fun r => lwOf C (w r.1).post r.2 := by
    rw [List.map_map]
    refine List.map_congr_left fun r _ => ?_
    have : (familySet (dirFam C) M).llh w (hot r.2) = .ok fun m => lwOf C (w m).post r.2 :=
      seqFin_ok _ _ fun m => dir_llh_hot hC _ (hw m).2 _
    show valueOf 0 ((familySet (dirFam C) M).llh w (hot r.2)) r.1 = _
    rw [this]
    rfl
  rw [hl] at h1
  exact ⟨h1.trans_eq hE, fun h => h2 (hE.trans h)⟩

theorem mixtureSet_llh {M C : ℕ} (hC : 1 ≤ C) (inner : SetModel X (M * C)) (Vin : inner.State → Prop)
    (XV : X → Prop) (hin : Lawful inner Vin XV) (st : (mixtureSet M C inner).State)
    (hv : MixSetValid inner Vin st) (x : X) (hx : XV x) :
    (mixtureSet M C inner).llh st x = .ok fun m => (mixLocal (lwOf C (st.1 m).post)
        fun c => valueOf 0 (inner.llh st.2 x) (flatIdx m c)).value := by
  obtain ⟨v, hv1⟩ := hin.llh_ok st.2 x hv.2 hx
  show (mixSetOut inner st.1 st.2 x >>= _) = _
  unfold mixSetOut
  rw [seqFin_ok _ (fun m => lwOf C (st.1 m).post) fun m => logWeights_eq _ (hv.1 m).2.1, hv1]
  show Except.ok _ = _
  congr 1
  funext m
  rw [C44_mixture_set_agrees hC]
  rfl

theorem mixtureSet_kl {M C : ℕ} (hC : 1 ≤ C) (inner : SetModel X (M * C)) (Vin : inner.State → Prop)
    (XV : X → Prop) (hin : Lawful inner Vin XV) (st : (mixtureSet M C inner).State)
    (hv : MixSetValid inner Vin st) :
    valueOf 0 ((mixtureSet M C inner).kl st) =
      valueOf 0 ((familySet (dirFam C) M).kl st.1) + valueOf 0 (inner.kl st.2) := by
  obtain ⟨k, hk, _⟩ := hin.kl_ok st.2 hv.2
  have h1 := seqFin_ok (fun m => (dirFam C).paramKl (st.1 m))
    (fun m => (dirConj hC).D (st.1 m).post (st.1 m).prior) fun m => (dirConj hC).paramKl_eq _ (hv.1 m)
  have e1 : (mixtureSet M C inner).kl st =
      .ok (∑ m, (dirConj hC).D (st.1 m).post (st.1 m).prior + k) := by
    show (seqFin _ >>= _) = _
    rw [h1, ok_bind, hk]
    rfl
  have e2 : (familySet (dirFam C) M).kl st.1 = .ok (∑ m, (dirConj hC).D (st.1 m).post (st.1 m).prior) := by
    show (seqFin _ >>= _) = _
    rw [h1]
    rfl
  rw [e1, e2, hk]
  rfl

theorem flatIdx_eq {M C : ℕ} (m : Fin M) (c : Fin C) : finProdFinEquiv (m, c) = flatIdx m c := by
  apply Fin.ext
  simp only [flatIdx, finProdFinEquiv_apply_val]
  ring

theorem exp_mixLocal {C : ℕ} (hC : 1 ≤ C) (lw f : Fin C → ℝ) :
    exp (mixLocal lw f).value = ∑ c, exp (lw c + f c) := by
  have hp : 0 < ∑ k, exp (lw k) * exp (f k) :=
    Finset.sum_pos (fun k _ => by positivity) ⟨⟨0, hC⟩, Finset.mem_univ _⟩
  rw [C44_value hC, exp_log hp]
  exact Finset.sum_congr rfl fun c _ => (exp_add _ _).symm

theorem exp_list_sum {α : Type} (f : α → ℝ) (l : List α) : exp (l.map f).sum = (l.map fun a => exp (f a)).prod := by
  induction l with
  | nil => simp
  | cons a l ih => simp [exp_add, ih]

theorem prod_map_mul' {α : Type} (f g : α → ℝ≥0∞) (l : List α) :
    (l.map fun a => f a * g a).prod = (l.map f).prod * (l.map g).prod := List.prod_map_mul

section prod
variable {A B : Type} [MeasurableSpace A] [MeasurableSpace B] (μ : Measure A) (ν : Measure B) [SFinite ν]

theorem lintegral_rows_mul {ι : Type} (f : ι → A → ℝ≥0∞) (g : ι → B → ℝ≥0∞) (hf : ∀ i, Measurable (f i))
    (hg : ∀ i, Measurable (g i)) (L : List ι) :
    ∫⁻ θ : A × B, (L.map fun p => f p θ.1 * g p θ.2).prod ∂μ.prod ν =
      (∫⁻ a, (L.map fun p => f p a).prod ∂μ) * ∫⁻ b, (L.map fun p => g p b).prod ∂ν := by
  simp_rw [prod_map_mul']
  exact lintegral_prod_mul (measurable_list_prod f hf L).aemeasurable
    (measurable_list_prod g hg L).aemeasurable

end prod

theorem mixtureSet_bounds {M C : ℕ} (hC : 1 ≤ C) (inner : SetModel X (M * C)) (Vin : inner.State → Prop)
    (XV : X → Prop) (hin : Lawful inner Vin XV) (G : SetGen inner.State X (M * C))
    (hG : Bounds inner Vin XV G) :
    Bounds (mixtureSet M C inner) (MixSetValid inner Vin) XV (mixtureGen G) where
  prob st hv := by
    have := hG.prob st.2 hv.2
    have : ∀ m, IsProbabilityMeasure (dirichletLaw fun c : Fin C => (st.1 m).prior.getD c 0) :=
      fun m => (dir_marg hC).prob _ (hv.1 m).1
    unfold mixtureGen
    exact inferInstance
  meas m x := by
    show Measurable fun θ : (Fin M → Fin C → ℝ) × G.Θ =>
      ∑ c, ENNReal.ofReal (θ.1 m c) * G.dens θ.2 (finProdFinEquiv (m, c)) x
    refine Finset.measurable_sum _ fun c _ => ?_
    refine Measurable.mul ?_ ((hG.meas _ x).comp measurable_snd)
    fun_prop
  bound st rows hv hx := by
    have := hG.prob st.2 hv.2
    have key := soft_bound (U := X × Fin M) (Z := fun _ => Fin C)
      ((Measure.pi fun m => dirichletLaw fun c : Fin C => (st.1 m).prior.getD c 0).prod (G.law st.2))
      (fun r c => exp (lwOf C (st.1 r.2).post c + valueOf 0 (inner.llh st.2 r.1) (flatIdx r.2 c)))
      (fun r c θ => ENNReal.ofReal (θ.1 r.2 c) * G.dens θ.2 (finProdFinEquiv (r.2, c)) r.1)
      (exp (-valueOf 0 ((mixtureSet M C inner).kl st))) (exp_pos _).le (fun _ _ => (exp_pos _).le)
      (fun r c => Measurable.mul (by fun_prop) ((hG.meas _ _).comp measurable_snd)) rows (by
        intro L hL
        rw [lintegral_rows_mul _ _ (fun (p : (r : X × Fin M) × Fin C) (θ : Fin M → Fin C → ℝ) =>
          ENNReal.ofReal (θ p.1.2 p.2)) (fun p θ => G.dens θ (finProdFinEquiv (p.1.2, p.2)) p.1.1)
          (fun p => by fun_prop) (fun p => hG.meas _ _)]
        have h1 := (weights_bound hC st.1 hv.1 (L.map fun p => (p.1.2, p.2))).1
        have h2 := hG.bound st.2 (L.map fun p => (p.1.1, finProdFinEquiv (p.1.2, p.2))) hv.2 (by
          intro r hr
          obtain ⟨p, hp, rfl⟩ := List.mem_map.1 hr
          exact hx _ (hL p hp))
        have h3 := mul_le_mul' h1 h2
        rw [← ENNReal.ofReal_mul (exp_pos _).le, ← exp_add] at h3
        unfold rowsEvidence at h3
        simp only [List.map_map, Function.comp_def, flatIdx_eq] at h3 ⊢
        refine le_trans (le_of_eq ?_) h3
        congr 1
        rw [← exp_list_sum, ← exp_add, mixtureSet_kl hC inner Vin XV hin st hv, List.sum_map_add]
        congr 1
        ring)
    refine le_trans (le_of_eq ?_) key
    congr 1
    rw [sub_eq_add_neg, exp_add, exp_list_sum]
    congr 2
    refine List.map_congr_left fun r hr => ?_
    rw [mixtureSet_llh hC inner Vin XV hin st hv r.1 (hx r hr)]
    exact exp_mixLocal hC _ _
  finite st rows hv hx := by
    have := hG.prob st.2 hv.2
    refine soft_finite (U := X × Fin M) (Z := fun _ => Fin C)
      ((Measure.pi fun m => dirichletLaw fun c : Fin C => (st.1 m).prior.getD c 0).prod (G.law st.2))
      (fun r c θ => ENNReal.ofReal (θ.1 r.2 c) * G.dens θ.2 (finProdFinEquiv (r.2, c)) r.1)
      (fun r c => Measurable.mul (by fun_prop) ((hG.meas _ _).comp measurable_snd)) rows (by
        intro L hL
        rw [lintegral_rows_mul _ _ (fun (p : (r : X × Fin M) × Fin C) (θ : Fin M → Fin C → ℝ) =>
          ENNReal.ofReal (θ p.1.2 p.2)) (fun p θ => G.dens θ (finProdFinEquiv (p.1.2, p.2)) p.1.1)
          (fun p => by fun_prop) (fun p => hG.meas _ _)]
        have h1 := (weights_bound hC st.1 hv.1 (L.map fun p => (p.1.2, p.2))).2
        have h2 := hG.finite st.2 (L.map fun p => (p.1.1, finProdFinEquiv (p.1.2, p.2))) hv.2 (by
          intro r hr
          obtain ⟨p, hp, rfl⟩ := List.mem_map.1 hr
          exact hx _ (hL p hp))
        unfold rowsEvidence at h2
        simp only [List.map_map, Function.comp_def] at h1 h2
        exact ENNReal.mul_ne_top h1 h2)
  step_law st rows scale l st' h := by
    obtain ⟨outs, _, h⟩ := bind_ok h
    obtain ⟨w, hw, h⟩ := bind_ok h
    obtain ⟨s, hs, h⟩ := bind_ok h
    have h' := Except.ok.inj h
    subst h'
    have hp : ∀ m, (w m).prior = (st.1 m).prior := fun m => update_prior (seqFin_inv _ _ hw m)
    show (Measure.pi fun m => dirichletLaw fun c : Fin C => (w m).prior.getD c 0).prod (G.law s) =
      (Measure.pi fun m => dirichletLaw fun c : Fin C => (st.1 m).prior.getD c 0).prod (G.law st.2)
    simp_rw [hp]
    rw [hG.step_law _ _ _ _ _ hs]

theorem orderedSet_bounds {M S : ℕ} (order : Fin S → Fin M) (inner : SetModel X M)
    (V : inner.State → Prop) (XV : X → Prop) (hin : Lawful inner V XV) (G : SetGen inner.State X M)
    (hG : Bounds inner V XV G) : Bounds (orderedSet order inner) V XV (orderedGen order G) where
  prob := hG.prob
  meas m x := hG.meas (order m) x
  bound st rows hv hx := by
    have h := hG.bound st (rows.map fun r => (r.1, order r.2)) hv (by
      intro r hr
      obtain ⟨p, hp, rfl⟩ := List.mem_map.1 hr
      exact hx _ hp)
    unfold rowsEvidence at h
    simp only [List.map_map, Function.comp_def] at h
    refine le_trans (le_of_eq ?_) h
    congr 3
    congr 1
    refine List.map_congr_left fun r hr => ?_
    obtain ⟨v, e⟩ := hin.llh_ok st r.1 hv (hx r hr)
    have e' : (orderedSet order inner).llh st r.1 = .ok fun s => v (order s) := by
      show (inner.llh st r.1 >>= _) = _
      rw [e]
      rfl
    rw [e', e]
    rfl
  finite st rows hv hx := by
    have h := hG.finite st (rows.map fun r => (r.1, order r.2)) hv (by
      intro r hr
      obtain ⟨p, hp, rfl⟩ := List.mem_map.1 hr
      exact hx _ hp)
    unfold rowsEvidence at h
    simp only [List.map_map, Function.comp_def] at h
    exact h
  step_law st rows scale l st' h := hG.step_law _ _ _ _ _ h

/-- The rows of the first set of a concatenation. -/
def leftRows {M N : ℕ} (rows : List (X × Fin (M + N))) : List (X × Fin M) :=
  rows.filterMap fun r => Fin.addCases (motive := fun _ => Option (X × Fin M)) (fun m => some (r.1, m))
    (fun _ => none) r.2

/-- The rows of the second set of a concatenation. -/
def rightRows {M N : ℕ} (rows : List (X × Fin (M + N))) : List (X × Fin N) :=
  rows.filterMap fun r => Fin.addCases (motive := fun _ => Option (X × Fin N)) (fun _ => none)
    (fun n => some (r.1, n)) r.2

theorem joint_prod {M N : ℕ} (f : Fin M → X → ℝ≥0∞) (g : Fin N → X → ℝ≥0∞)
    (rows : List (X × Fin (M + N))) :
    (rows.map fun r => Fin.append (fun m => f m r.1) (fun n => g n r.1) r.2).prod =
      ((leftRows rows).map fun r => f r.2 r.1).prod * ((rightRows rows).map fun r => g r.2 r.1).prod := by
  unfold leftRows rightRows
  induction rows with
  | nil => simp
  | cons r rows ih =>
    obtain ⟨x, s⟩ := r
    rw [List.map_cons, List.prod_cons, ih]
    refine Fin.addCases (fun m => ?_) (fun n => ?_) s
    · simp [mul_assoc]
    · simp [mul_left_comm]

theorem joint_sum {M N : ℕ} (f : Fin M → X → ℝ) (g : Fin N → X → ℝ)
    (rows : List (X × Fin (M + N))) :
    (rows.map fun r => Fin.append (fun m => f m r.1) (fun n => g n r.1) r.2).sum =
      ((leftRows rows).map fun r => f r.2 r.1).sum + ((rightRows rows).map fun r => g r.2 r.1).sum := by
  unfold leftRows rightRows
  induction rows with
  | nil => simp
  | cons r rows ih =>
    obtain ⟨x, s⟩ := r
    rw [List.map_cons, List.sum_cons, ih]
    refine Fin.addCases (fun m => ?_) (fun n => ?_) s
    · simp [add_assoc]
    · simp [add_left_comm]

theorem mem_leftRows {M N : ℕ} {rows : List (X × Fin (M + N))} {r : X × Fin M} (h : r ∈ leftRows rows) :
    ∃ q ∈ rows, q.1 = r.1 := by
  unfold leftRows at h
  obtain ⟨q, hq, e⟩ := List.mem_filterMap.1 h
  refine ⟨q, hq, ?_⟩
  obtain ⟨x, s⟩ := q
  revert e
  refine Fin.addCases (fun m => ?_) (fun n => ?_) s
  · intro e; simp at e; rw [← e]
  · intro e; simp at e

theorem mem_rightRows {M N : ℕ} {rows : List (X × Fin (M + N))} {r : X × Fin N} (h : r ∈ rightRows rows) :
    ∃ q ∈ rows, q.1 = r.1 := by
  unfold rightRows at h
  obtain ⟨q, hq, e⟩ := List.mem_filterMap.1 h
  refine ⟨q, hq, ?_⟩
  obtain ⟨x, s⟩ := q
  revert e
  refine Fin.addCases (fun m => ?_) (fun n => ?_) s
  · intro e; simp at e
  · intro e; simp at e; rw [← e]

theorem joint_evidence {M N : ℕ} {St St' : Type} (G : SetGen St X M) (H : SetGen St' X N)
    (hG : ∀ m x, Measurable fun θ => G.dens θ m x) (hH : ∀ m x, Measurable fun θ => H.dens θ m x)
    (st : St × St') (hs : SFinite (H.law st.2)) (rows : List (X × Fin (M + N))) :
    rowsEvidence (jointGen G H) st rows =
      rowsEvidence G st.1 (leftRows rows) * rowsEvidence H st.2 (rightRows rows) := by
  unfold rowsEvidence
  show ∫⁻ θ : G.Θ × H.Θ, (rows.map fun r => Fin.append (fun m => G.dens θ.1 m r.1)
    (fun n => H.dens θ.2 n r.1) r.2).prod ∂(G.law st.1).prod (H.law st.2) = _
  simp_rw [fun θ : G.Θ × H.Θ => joint_prod (fun m x => G.dens θ.1 m x) (fun n x => H.dens θ.2 n x) rows]
  exact lintegral_prod_mul
    (measurable_list_prod (fun (r : X × Fin M) θ => G.dens θ r.2 r.1) (fun r => hG _ _) _).aemeasurable
    (measurable_list_prod (fun (r : X × Fin N) θ => H.dens θ r.2 r.1) (fun r => hH _ _) _).aemeasurable

theorem jointSet_bounds {M N : ℕ} (a : SetModel X M) (b : SetModel X N) (Va : a.State → Prop)
    (Vb : b.State → Prop) (XV : X → Prop) (ha : Lawful a Va XV) (hb : Lawful b Vb XV)
    (G : SetGen a.State X M) (H : SetGen b.State X N) (hG : Bounds a Va XV G) (hH : Bounds b Vb XV H) :
    Bounds (jointSet a b) (fun st => Va st.1 ∧ Vb st.2) XV (jointGen G H) where
  prob st hv := by
    have := hG.prob st.1 hv.1
    have := hH.prob st.2 hv.2
    unfold jointGen
    exact inferInstance
  meas m x := by
    show Measurable fun θ : G.Θ × H.Θ => Fin.append (fun m => G.dens θ.1 m x) (fun n => H.dens θ.2 n x) m
    refine Fin.addCases (fun m => ?_) (fun n => ?_) m
    · simp only [Fin.append_left]; exact (hG.meas m x).comp measurable_fst
    · simp only [Fin.append_right]; exact (hH.meas n x).comp measurable_snd
  bound st rows hv hx := by
    have := hH.prob st.2 hv.2
    refine le_of_le_of_eq ?_ (joint_evidence G H hG.meas hH.meas st inferInstance rows).symm
    have h1 := hG.bound st.1 (leftRows rows) hv.1 fun r hr => by
      obtain ⟨q, hq, e⟩ := mem_leftRows hr
      exact e ▸ hx q hq
    have h2 := hH.bound st.2 (rightRows rows) hv.2 fun r hr => by
      obtain ⟨q, hq, e⟩ := mem_rightRows hr
      exact e ▸ hx q hq
    have h3 := mul_le_mul' h1 h2
    rw [← ENNReal.ofReal_mul (exp_pos _).le, ← exp_add] at h3
    refine le_trans (le_of_eq ?_) h3
    congr 2
    obtain ⟨k, hk, _⟩ := ha.kl_ok st.1 hv.1
    obtain ⟨k', hk', _⟩ := hb.kl_ok st.2 hv.2
    have e1 : (jointSet a b).kl st = .ok (k + k') := by
      show (a.kl st.1 >>= _) = _
      rw [hk, ok_bind, hk']
      rfl
    have e2 : (rows.map fun r => valueOf 0 ((jointSet a b).llh st r.1) r.2) =
        rows.map fun r => Fin.append (fun m => valueOf 0 (a.llh st.1 r.1) m)
          (fun n => valueOf 0 (b.llh st.2 r.1) n) r.2 := List.map_congr_left fun r hr => by
      obtain ⟨v, hv1⟩ := ha.llh_ok st.1 r.1 hv.1 (hx r hr)
      obtain ⟨w, hw1⟩ := hb.llh_ok st.2 r.1 hv.2 (hx r hr)
      have : (jointSet a b).llh st r.1 = .ok (Fin.append v w) := by
        show (a.llh st.1 r.1 >>= _) = _
        rw [hv1, ok_bind, hw1]
        rfl
      rw [this, hv1, hw1]
      rfl
    rw [e1, e2, hk, hk', joint_sum (fun m x => valueOf 0 (a.llh st.1 x) m)
      (fun n x => valueOf 0 (b.llh st.2 x) n)]
    simp only [valueOf_ok]
    ring
  finite st rows hv hx := by
    have := hH.prob st.2 hv.2
    intro ht
    refine absurd ((joint_evidence G H hG.meas hH.meas st inferInstance rows).symm.trans ht) ?_
    exact ENNReal.mul_ne_top (hG.finite st.1 (leftRows rows) hv.1 fun r hr => by
      obtain ⟨q, hq, e⟩ := mem_leftRows hr
      exact e ▸ hx q hq) (hH.finite st.2 (rightRows rows) hv.2 fun r hr => by
      obtain ⟨q, hq, e⟩ := mem_rightRows hr
      exact e ▸ hx q hq)
  step_law st rows scale l st' h := by
    obtain ⟨s, hs, h⟩ := bind_ok h
    obtain ⟨t, ht, h⟩ := bind_ok h
    have h' := Except.ok.inj h
    subst h'
    show (G.law s).prod (H.law t) = (G.law st.1).prod (H.law st.2)
    rw [hG.step_law _ _ _ _ _ hs, hH.step_law _ _ _ _ _ ht]

/-! ## `Mixture` -/

theorem dirichlet_weights {K : ℕ} (hK : 1 ≤ K) (c : CParam (List ℝ)) (hc : ParamValid (DirValid K) c)
    (ks : List (Fin K)) :
    ENNReal.ofReal (exp ((ks.map fun k => lwOf K c.post k).sum - (dirConj hK).D c.post c.prior)) ≤
      ∫⁻ w, (ks.map fun k => ENNReal.ofReal (w k)).prod ∂(dirichletLaw fun k : Fin K => c.prior.getD k 0) ∧
    ∫⁻ w, (ks.map fun k => ENNReal.ofReal (w k)).prod ∂(dirichletLaw fun k : Fin K => c.prior.getD k 0) ≠ ⊤ := by
  obtain ⟨best, k, _, _, _, hk, e⟩ := fam_evidence (dirConj hK) (dir_marg hK) oneHot_counts c hc
    (ks.map hot) (by
      intro x hx
      obtain ⟨k, _, rfl⟩ := List.mem_map.1 hx
      exact ⟨k, rfl⟩)
  have hE : ∫⁻ θ, ((ks.map hot).map fun x => (dirGen K).dens θ x).prod ∂(dirGen K).law c.prior =
      ∫⁻ w, (ks.map fun k => ENNReal.ofReal (w k)).prod ∂dirichletLaw fun k : Fin K => c.prior.getD k 0 := by
    refine lintegral_congr fun θ => ?_
    rw [List.map_map]
    congr 1
    exact List.map_congr_left fun k _ => oneHot_dens k θ
  have hl : ((ks.map hot).map fun x => valueOf 0 ((dirFam K).llh c x)) =
      ks.map fun k => lwOf K c.post k := by
    rw [List.map_map]
    refine List.map_congr_left fun k _ => ?_
    show valueOf 0 ((dirFam K).llh c (hot k)) = _
    rw [dir_llh_hot hK c hc.2 k]
    rfl
  rw [← hE, e, hl, (dirConj hK).paramKl_eq c hc, valueOf_ok]
  exact ⟨ENNReal.ofReal_le_ofReal (exp_le_exp.2 (by linarith)), ENNReal.ofReal_ne_top⟩

theorem batchScale_one {n : ℕ} (hn : 0 < n) (datasize : ℤ) (h : datasize ≤ 0 ∨ datasize = n) :
    batchScale n datasize = .ok 1 := by
  unfold batchScale
  rw [if_neg hn.ne']
  have h0 : (n : ℝ) ≠ 0 := by positivity
  congr 1
  rcases h with h | h
  · rw [if_pos h]; push_cast; exact div_self h0
  · rw [h]
    split_ifs <;> (push_cast; exact div_self h0)

theorem mix_elbo_eq {K : ℕ} (hK : 1 ≤ K) (inner : SetModel X K) (V : inner.State → Prop) (XV : X → Prop)
    (hin : Lawful inner V XV) (st : MixState inner) (hv : MixValid inner V st) (data : List X)
    (hd : ∀ x ∈ data, XV x) (hne : data ≠ []) (datasize : ℤ)
    (hz : datasize ≤ 0 ∨ datasize = data.length) :
    mixElbo inner st data datasize = .ok ((data.map fun x => (mixLocal (lwOf K st.weights.post)
        (valueOf 0 (inner.llh st.comps x))).value).sum -
        (valueOf 0 (inner.kl st.comps) + (dirConj hK).D st.weights.post st.weights.prior)) := by
  have hout : ∀ x, XV x → mixOut inner st x =
      .ok (mixLocal (lwOf K st.weights.post) (valueOf 0 (inner.llh st.comps x))) := by
    intro x hx
    obtain ⟨v, h⟩ := hin.llh_ok st.comps x hv.2 hx
    unfold mixOut
    rw [logWeights_eq _ hv.1.2.1, h]
    rfl
  obtain ⟨k, hk, _⟩ := hin.kl_ok st.comps hv.2
  have hkl : mixKl inner st = .ok (k + (dirConj hK).D st.weights.post st.weights.prior) := by
    unfold mixKl
    rw [hk, (dirConj hK).paramKl_eq _ hv.1]
    rfl
  unfold mixElbo
  rw [batchScale_one (List.length_pos_iff.2 hne) datasize hz, ok_bind,
    mapM_ok_map _ _ data fun x h => hout x (hd x h), ok_bind, hkl, hk]
  show Except.ok _ = _
  rw [List.map_map, one_mul]
  rfl

theorem mix_bound {K : ℕ} (hK : 1 ≤ K) (inner : SetModel X K) (V : inner.State → Prop) (XV : X → Prop)
    (hin : Lawful inner V XV) (G : SetGen inner.State X K) (hG : Bounds inner V XV G)
    (st : MixState inner) (hv : MixValid inner V st) (data : List X)
    (hd : ∀ x ∈ data, XV x) (hne : data ≠ []) (datasize : ℤ)
    (hz : datasize ≤ 0 ∨ datasize = data.length) :
    ENNReal.ofReal (exp (valueOf 0 (mixElbo inner st data datasize))) ≤ mixEvidence G st data ∧
    mixEvidence G st data ≠ ⊤ := by
  have := hG.prob st.comps hv.2
  have hmeas : ∀ (x : X) (k : Fin K), Measurable fun θ : (Fin K → ℝ) × G.Θ =>
      ENNReal.ofReal (θ.1 k) * G.dens θ.2 k x := fun x k =>
    Measurable.mul (by fun_prop) ((hG.meas _ _).comp measurable_snd)
  have hsplit : ∀ L : List (Σ _ : X, Fin K),
      ∫⁻ θ : (Fin K → ℝ) × G.Θ, (L.map fun p => ENNReal.ofReal (θ.1 p.2) * G.dens θ.2 p.2 p.1).prod
        ∂(dirichletLaw fun k : Fin K => st.weights.prior.getD k 0).prod (G.law st.comps) =
      (∫⁻ w, ((L.map fun p => p.2).map fun k => ENNReal.ofReal (w k)).prod
        ∂dirichletLaw fun k : Fin K => st.weights.prior.getD k 0) *
      rowsEvidence G st.comps (L.map fun p => (p.1, p.2)) := by
    intro L
    rw [lintegral_rows_mul _ _ (fun (p : Σ _ : X, Fin K) (w : Fin K → ℝ) => ENNReal.ofReal (w p.2))
      (fun p θ => G.dens θ p.2 p.1) (fun p => by fun_prop) (fun p => hG.meas _ _)]
    unfold rowsEvidence
    simp only [List.map_map, Function.comp_def]
  refine ⟨?_, ?_⟩
  · have key := soft_bound (U := X) (Z := fun _ => Fin K)
      ((dirichletLaw fun k : Fin K => st.weights.prior.getD k 0).prod (G.law st.comps))
      (fun x k => exp (lwOf K st.weights.post k + valueOf 0 (inner.llh st.comps x) k))
      (fun x k θ => ENNReal.ofReal (θ.1 k) * G.dens θ.2 k x)
      (exp (-(valueOf 0 (inner.kl st.comps) + (dirConj hK).D st.weights.post st.weights.prior)))
      (exp_pos _).le (fun _ _ => (exp_pos _).le) hmeas data (by
        intro L hL
        rw [hsplit]
        have h1 := (dirichlet_weights hK st.weights hv.1 (L.map fun p => p.2)).1
        have h2 := hG.bound st.comps (L.map fun p => (p.1, p.2)) hv.2 (by
          intro r hr
          obtain ⟨p, hp, rfl⟩ := List.mem_map.1 hr
          exact hd _ (hL p hp))
        have h3 := mul_le_mul' h1 h2
        rw [← ENNReal.ofReal_mul (exp_pos _).le, ← exp_add] at h3
        refine le_trans (le_of_eq ?_) h3
        congr 1
        simp only [List.map_map, Function.comp_def]
        rw [← exp_list_sum, ← exp_add, List.sum_map_add]
        congr 1
        ring)
    refine le_trans (le_of_eq ?_) key
    rw [mix_elbo_eq hK inner V XV hin st hv data hd hne datasize hz, valueOf_ok, sub_eq_add_neg, exp_add,
      exp_list_sum]
    congr 3
    exact List.map_congr_left fun x _ => exp_mixLocal hK _ _
  · refine soft_finite (U := X) (Z := fun _ => Fin K)
      ((dirichletLaw fun k : Fin K => st.weights.prior.getD k 0).prod (G.law st.comps))
      (fun x k θ => ENNReal.ofReal (θ.1 k) * G.dens θ.2 k x) hmeas data (by
        intro L hL
        rw [hsplit]
        exact ENNReal.mul_ne_top (dirichlet_weights hK st.weights hv.1 (L.map fun p => p.2)).2
          (hG.finite st.comps (L.map fun p => (p.1, p.2)) hv.2 (by
          intro r hr
          obtain ⟨p, hp, rfl⟩ := List.mem_map.1 hr
          exact hd _ (hL p hp))))

/-! ## `HMM` -/

/-- The frames of the utterances, with the states of the given sequences. -/
def pathRows {S : ℕ} (L : List (Σ u : Utt X, Fin (u.1 + 1) → Fin S)) : List (X × Fin S) :=
  (L.map fun p => List.ofFn fun t => (p.1.2 t, p.2 t)).flatten

theorem pathRows_prod {S : ℕ} (f : Fin S → X → ℝ≥0∞) (L : List (Σ u : Utt X, Fin (u.1 + 1) → Fin S)) :
    ((pathRows L).map fun r => f r.2 r.1).prod = (L.map fun p => ∏ t, f (p.2 t) (p.1.2 t)).prod := by
  unfold pathRows
  induction L with
  | nil => simp
  | cons p L ih =>
    simp only [List.map_cons, List.flatten_cons, List.map_append, List.prod_append, List.prod_cons, ih]
    rw [List.map_ofFn, List.prod_ofFn]
    rfl

theorem pathRows_sum {S : ℕ} (f : Fin S → X → ℝ) (L : List (Σ u : Utt X, Fin (u.1 + 1) → Fin S)) :
    ((pathRows L).map fun r => f r.2 r.1).sum = (L.map fun p => ∑ t, f (p.2 t) (p.1.2 t)).sum := by
  unfold pathRows
  induction L with
  | nil => simp
  | cons p L ih =>
    simp only [List.map_cons, List.flatten_cons, List.map_append, List.sum_append, List.sum_cons, ih]
    rw [List.map_ofFn, List.sum_ofFn]
    rfl

theorem mem_pathRows {S : ℕ} {L : List (Σ u : Utt X, Fin (u.1 + 1) → Fin S)} {r : X × Fin S}
    (h : r ∈ pathRows L) : ∃ p ∈ L, ∃ t, r.1 = p.1.2 t := by
  unfold pathRows at h
  obtain ⟨l, hl, hr⟩ := List.mem_flatten.1 h
  obtain ⟨p, hp, rfl⟩ := List.mem_map.1 hl
  rw [List.mem_ofFn] at hr
  obtain ⟨t, rfl⟩ := hr
  exact ⟨p, hp, t, rfl⟩

theorem hmm_bound {S : ℕ} (g : CGraph S) (inner : SetModel X S) (V : inner.State → Prop) (XV : X → Prop)
    (G : SetGen inner.State X S) (hG : Bounds inner V XV G) (st : inner.State) (hv : V st)
    (utts : List (Utt X)) (hu : ∀ u ∈ utts, (∀ t, XV (u.2 t)) ∧ Feasible g u) :
    ENNReal.ofReal (exp (hmmObjective g inner 1 utts 1 st)) ≤ hmmEvidence g G st utts ∧
    hmmEvidence g G st utts ≠ ⊤ := by
  have hmeas : ∀ (u : Utt X) (p : Fin (u.1 + 1) → Fin S), Measurable fun θ =>
      ENNReal.ofReal (pathProb g p) * ∏ t, G.dens θ (p t) (u.2 t) := fun u p =>
    Measurable.mul measurable_const (Finset.measurable_prod _ fun t _ => hG.meas _ _)
  have hsplit : ∀ L : List (Σ u : Utt X, Fin (u.1 + 1) → Fin S),
      ∫⁻ θ, (L.map fun p => ENNReal.ofReal (pathProb g p.2) * ∏ t, G.dens θ (p.2 t) (p.1.2 t)).prod
        ∂G.law st = (L.map fun p => ENNReal.ofReal (pathProb g p.2)).prod *
          rowsEvidence G st (pathRows L) := by
    intro L
    unfold rowsEvidence
    simp_rw [prod_map_mul', fun θ : G.Θ => pathRows_prod (fun s x => G.dens θ s x) L]
    rw [lintegral_const_mul _ (measurable_list_prod
      (fun (p : Σ u : Utt X, Fin (u.1 + 1) → Fin S) θ => ∏ t, G.dens θ (p.2 t) (p.1.2 t))
      (fun p => Finset.measurable_prod _ fun t _ => hG.meas _ _) L)]
  have hrows : ∀ L : List (Σ u : Utt X, Fin (u.1 + 1) → Fin S), (∀ p ∈ L, p.1 ∈ utts) →
      ∀ r ∈ pathRows L, XV r.1 := by
    intro L hL r hr
    obtain ⟨p, hp, t, e⟩ := mem_pathRows hr
    rw [e]
    exact (hu _ (hL p hp)).1 t
  refine ⟨?_, ?_⟩
  · have key := soft_bound (U := Utt X) (Z := fun u => Fin (u.1 + 1) → Fin S) (G.law st)
      (fun u p => pathPrior g p * exp (∑ t, valueOf 0 (inner.llh st (u.2 t)) (p t)))
      (fun u p θ => ENNReal.ofReal (pathProb g p) * ∏ t, G.dens θ (p t) (u.2 t))
      (exp (-valueOf 0 (inner.kl st))) (exp_pos _).le
      (fun _ _ => mul_nonneg (pathPrior_nonneg g _) (exp_pos _).le) hmeas utts (by
        intro L hL
        rw [hsplit]
        have h2 := mul_le_mul_right (hG.bound st (pathRows L) hv (hrows L hL))
          (L.map fun p => ENNReal.ofReal (pathProb g p.2)).prod
        refine le_trans (le_of_eq ?_) h2
        have h3 : ∀ L : List (Σ u : Utt X, Fin (u.1 + 1) → Fin S),
            (L.map fun p => ENNReal.ofReal (pathProb g p.2)).prod =
            ENNReal.ofReal (L.map fun p => pathPrior g p.2).prod := by
          intro L
          induction L with
          | nil => simp
          | cons p L ih =>
            rw [List.map_cons, List.prod_cons, List.map_cons, List.prod_cons, ih,
              ENNReal.ofReal_mul (pathPrior_nonneg g _)]
            rfl
        rw [h3, ← ENNReal.ofReal_mul (List.prod_nonneg (by
          intro a h
          obtain ⟨u, _, rfl⟩ := List.mem_map.1 h
          exact pathPrior_nonneg g _)), pathRows_sum (fun s x => valueOf 0 (inner.llh st x) s)]
        congr 1
        rw [List.prod_map_mul, ← exp_list_sum, sub_eq_add_neg, exp_add, mul_assoc])
    refine le_trans (le_of_eq ?_) key
    unfold hmmObjective
    rw [one_mul, sub_eq_add_neg, exp_add, exp_list_sum]
    congr 3
    refine List.map_congr_left fun u hu' => ?_
    have hpos := evidence_pos_of_feasible g (hu u hu').2
      fun t s => 1 * valueOf 0 (inner.llh st (u.2 t)) s
    refine (exp_log hpos).trans ?_
    rw [evidence_real]
    simp only [one_mul]
  · refine soft_finite (U := Utt X) (Z := fun u => Fin (u.1 + 1) → Fin S) (G.law st)
      (fun u p θ => ENNReal.ofReal (pathProb g p) * ∏ t, G.dens θ (p t) (u.2 t)) hmeas utts (by
        intro L hL
        rw [hsplit]
        refine ENNReal.mul_ne_top ?_ (hG.finite st (pathRows L) hv (hrows L hL))
        clear hL
        induction L with
        | nil => simp
        | cons p L ih =>
          rw [List.map_cons, List.prod_cons]
          exact ENNReal.mul_ne_top ENNReal.ofReal_ne_top ih)

end Verif.VB
