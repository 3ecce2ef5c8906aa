import Verif.Lemmas.EvidenceFam
import Verif.Lemmas.VBSets

/-!
# Sets of models bound the evidence from below
-/

namespace Verif.VB

open Real MeasureTheory ProbabilityTheory Verif.Dists Verif.DistSpec Verif.Props Verif.Mixture
open scoped ENNReal

variable {X P : Type}

theorem Lawful.mono {M : ℕ} {S : SetModel X M} {V : S.State → Prop} {XV XV' : X → Prop}
    (h : Lawful S V XV) (hs : ∀ x, XV' x → XV x) : Lawful S V XV' :=
  ⟨fun st x hv hx => h.llh_ok st x hv (hs x hx), h.kl_ok, fun st rows scale l hv hr =>
    h.step_ok st rows scale l hv fun r hr' => ⟨hs _ (hr r hr').1, (hr r hr').2⟩⟩

/-- One parameter: the log of the evidence is the objective plus the divergence of the posterior to
the posterior reached by a full step. -/
theorem fam_evidence {fam : Family X P} {V : P → Prop} {XV XV' : X → Prop} (C : Conj fam V XV)
    {G : FamGen X P} (hm : Marg fam V XV' C.base G) (hs : ∀ x, XV' x → XV x) (c : CParam P)
    (hc : ParamValid V c) (xs : List X) (hx : ∀ x ∈ xs, XV' x) :
    ∃ best k, V best ∧ fam.update c (vsmul 1 (wsum fam.sdim ((xs.map fun x => ((1 : ℝ), x)).map fun r =>
        (r.1, fam.stats r.2)))) 1 = .ok ⟨c.prior, best⟩ ∧ fam.kl c.post best = .ok k ∧ 0 ≤ k ∧
      ∫⁻ θ, (xs.map fun x => G.dens θ x).prod ∂G.law c.prior =
        ENNReal.ofReal (exp ((xs.map fun x => valueOf 0 (fam.llh c x)).sum -
          valueOf 0 (fam.paramKl c) + k)) := by
  obtain ⟨best, a0, a1, e1, e2, e3, e4⟩ := hm.marg c.prior xs hc.1 hx
  have hr : ∀ r ∈ xs.map (fun x => ((1 : ℝ), x)), 0 ≤ r.1 ∧ XV r.2 := by
    intro r h
    obtain ⟨x, h', rfl⟩ := List.mem_map.1 h
    exact ⟨zero_le_one, hs _ (hx x h')⟩
  obtain ⟨best', a0', a1', v, f2, f3, f4, f5⟩ := C.oneStepOptimal c.prior (xs.map fun x => ((1 : ℝ), x))
    1 hc.1 hr zero_le_one
  obtain ⟨_, g1, _⟩ := f5 c.prior hc.1
  rw [g1] at e1
  have hb : best' = best := congrArg CParam.post (Except.ok.inj e1)
  subst hb
  obtain ⟨k, g2, g3, g4, g5⟩ := f5 c.post hc.2
  refine ⟨best', k, v, g2, g3, g4, ?_⟩
  rw [e4]
  rw [e2] at f2
  rw [e3] at f3
  have h0 := Except.ok.inj f2
  have h1 := Except.ok.inj f3
  subst h0 h1
  rw [C.objective_eq ⟨c.prior, c.post⟩ _ _ hc fun r h => (hr r h).2] at g5
  have g6 := Except.ok.inj g5
  congr 2
  have hl : (xs.map fun x => valueOf 0 (fam.llh c x)) =
      xs.map fun x => vdot (C.T c.post) (fam.stats x) + C.base := List.map_congr_left fun x h => by
    rw [C.llh_eq _ _ hc.2 (hs x (hx x h))]; rfl
  rw [hl, C.paramKl_eq c hc, valueOf_ok]
  simp only [List.map_map, Function.comp_def, one_mul] at g6
  have hconst : (xs.map fun _ => C.base).sum = xs.length * C.base := by simp
  rw [hconst] at g6
  linarith

/-! ## Rows of a set of independent parameters -/

/-- The data points explained by the model `m`. -/
def sel {M : ℕ} (m : Fin M) (rows : List (X × Fin M)) : List X :=
  (rows.filter fun r => decide (r.2 = m)).map Prod.fst

theorem mem_sel {M : ℕ} {m : Fin M} {rows : List (X × Fin M)} {x : X} (h : x ∈ sel m rows) :
    ∃ r ∈ rows, r.1 = x := by
  unfold sel at h
  obtain ⟨r, hr, rfl⟩ := List.mem_map.1 h
  exact ⟨r, (List.mem_filter.1 hr).1, rfl⟩

theorem sel_cons {M : ℕ} (m : Fin M) (r : X × Fin M) (rows : List (X × Fin M)) :
    sel m (r :: rows) = if r.2 = m then r.1 :: sel m rows else sel m rows := by
  unfold sel
  by_cases h : r.2 = m <;> simp [h, List.filter_cons]

theorem prod_sel {M : ℕ} (F : Fin M → X → ℝ≥0∞) (rows : List (X × Fin M)) :
    (rows.map fun r => F r.2 r.1).prod = ∏ m, ((sel m rows).map (F m)).prod := by
  induction rows with
  | nil => simp [sel]
  | cons r rows ih =>
    rw [List.map_cons, List.prod_cons, ih]
    have : ∀ m, ((sel m (r :: rows)).map (F m)).prod =
        (if r.2 = m then F m r.1 else 1) * ((sel m rows).map (F m)).prod := by
      intro m
      rw [sel_cons]
      split_ifs <;> simp
    rw [Finset.prod_congr rfl fun m _ => this m, Finset.prod_mul_distrib]
    congr 1
    rw [Finset.prod_ite_eq Finset.univ r.2 fun m => F m r.1, if_pos (Finset.mem_univ _)]

theorem sum_sel {M : ℕ} (F : Fin M → X → ℝ) (rows : List (X × Fin M)) :
    (rows.map fun r => F r.2 r.1).sum = ∑ m, ((sel m rows).map (F m)).sum := by
  induction rows with
  | nil => simp [sel]
  | cons r rows ih =>
    rw [List.map_cons, List.sum_cons, ih]
    have : ∀ m, ((sel m (r :: rows)).map (F m)).sum =
        (if r.2 = m then F m r.1 else 0) + ((sel m rows).map (F m)).sum := by
      intro m
      rw [sel_cons]
      split_ifs <;> simp
    rw [Finset.sum_congr rfl fun m _ => this m, Finset.sum_add_distrib]
    congr 1
    rw [Finset.sum_ite_eq Finset.univ r.2 fun m => F m r.1, if_pos (Finset.mem_univ _)]

theorem seqFin_inv {α : Type} {M : ℕ} (f : Fin M → Except Err α) (g : Fin M → α)
    (h : seqFin f = .ok g) (m : Fin M) : f m = .ok (g m) := by
  induction M with
  | zero => exact m.elim0
  | succ M ih =>
    simp only [seqFin] at h
    split at h
    · simp at h
    · rename_i a ha
      split at h
      · simp at h
      · rename_i r hr
        have := Except.ok.inj h
        subst this
        refine Fin.cases ?_ (fun i => ?_) m
        · exact ha
        · exact ih (fun i => f i.succ) r hr i

theorem update_prior {fam : Family X P} {c c' : CParam P} {s : List ℝ} {l : ℝ}
    (h : fam.update c s l = .ok c') : c'.prior = c.prior := by
  unfold Family.update at h
  cases h1 : fam.natural c.prior with
  | error e => rw [h1] at h; exact absurd h (by simp [bind, Except.bind])
  | ok n0 =>
    cases h2 : fam.natural c.post with
    | error e => rw [h1, h2] at h; exact absurd h (by simp [bind, Except.bind])
    | ok n1 =>
      rw [h1, h2, ok_bind, ok_bind] at h
      split_ifs at h
      cases h3 : fam.fromNatural (vadd n1 (vsmul l (vsub (vadd n0 s) n1))) with
      | error e => rw [h3] at h; exact absurd h (by simp [bind, Except.bind])
      | ok p =>
        rw [h3, ok_bind] at h
        rw [← Except.ok.inj h]

/-- The evidence of a set of independent parameters. -/
theorem family_rows {M : ℕ} {G : FamGen X P} {V : P → Prop} (hp : ∀ p, V p → IsProbabilityMeasure (G.law p))
    (hm : ∀ x, Measurable fun θ => G.dens θ x) (st : Fin M → CParam P) (hv : SetValid V st)
    (rows : List (X × Fin M)) :
    rowsEvidence (familyGen G M) st rows =
      ∏ m, ∫⁻ θ, ((sel m rows).map fun x => G.dens θ x).prod ∂G.law (st m).prior := by
  unfold rowsEvidence
  show ∫⁻ θ : Fin M → G.Θ, (rows.map fun r => G.dens (θ r.2) r.1).prod
    ∂(Measure.pi fun m => G.law (st m).prior) = _
  have : ∀ θ : Fin M → G.Θ, (rows.map fun r => G.dens (θ r.2) r.1).prod =
      ∏ m, ((sel m rows).map fun x => G.dens (θ m) x).prod := fun θ =>
    prod_sel (fun m x => G.dens (θ m) x) rows
  simp_rw [this]
  exact lintegral_pi_prod _ (fun m => hp _ (hv m).1)
    (fun m t => ((sel m rows).map fun x => G.dens t x).prod)
    (fun m => measurable_list_prod (fun x (θ : G.Θ) => G.dens θ x) hm _)

theorem familySet_bounds {fam : Family X P} {V : P → Prop} {XV XV' : X → Prop} (C : Conj fam V XV)
    {G : FamGen X P} (hm : Marg fam V XV' C.base G) (hs : ∀ x, XV' x → XV x) (M : ℕ) :
    Bounds (familySet fam M) (SetValid V) XV' (familyGen G M) where
  prob st hv := by
    have : ∀ m, IsProbabilityMeasure (G.law (st m).prior) := fun m => hm.prob _ (hv m).1
    unfold familyGen
    exact inferInstance
  meas m x := (hm.meas x).comp (measurable_pi_apply m)
  bound st rows hv hx := by
    refine le_of_le_of_eq ?_ (family_rows hm.prob hm.meas st hv rows).symm
    have hsel : ∀ m, ∀ x ∈ sel m rows, XV' x := by
      intro m x h
      obtain ⟨r, hr, rfl⟩ := mem_sel h
      exact hx r hr
    choose best k v e1 e2 hk e3 using fun m => fam_evidence C hm hs (st m) (hv m) (sel m rows) (hsel m)
    rw [Finset.prod_congr rfl fun m _ => e3 m, ← ENNReal.ofReal_prod_of_nonneg
      (fun m _ => (exp_pos _).le), ← exp_sum]
    refine ENNReal.ofReal_le_ofReal (exp_le_exp.2 ?_)
    have hl : (rows.map fun r => valueOf 0 ((familySet fam M).llh st r.1) r.2) =
        rows.map fun r => valueOf 0 (fam.llh (st r.2) r.1) := List.map_congr_left fun r h => by
      have : (familySet fam M).llh st r.1 = .ok fun m => valueOf 0 (fam.llh (st m) r.1) :=
        seqFin_ok _ _ fun m => by rw [C.llh_eq _ _ (hv m).2 (hs _ (hx r h))]; rfl
      rw [this]
      rfl
    have hkl : (familySet fam M).kl st = .ok (∑ m, valueOf 0 (fam.paramKl (st m))) := by
      show (seqFin _ >>= _) = _
      rw [seqFin_ok _ (fun m => valueOf 0 (fam.paramKl (st m)))
        fun m => by rw [C.paramKl_eq _ (hv m)]; rfl]
      rfl
    rw [hl, hkl, valueOf_ok, sum_sel (fun m x => valueOf 0 (fam.llh (st m) x)), ← Finset.sum_sub_distrib]
    exact Finset.sum_le_sum fun m _ => by linarith [hk m]
  finite st rows hv hx := by
    intro ht
    refine absurd ((family_rows hm.prob hm.meas st hv rows).symm.trans ht) ?_
    refine ENNReal.prod_ne_top fun m _ => ?_
    obtain ⟨_, _, _, _, _, _, e⟩ := fam_evidence C hm hs (st m) (hv m) (sel m rows) (by
      intro x h
      obtain ⟨r, hr, rfl⟩ := mem_sel h
      exact hx r hr)
    rw [e]
    exact ENNReal.ofReal_ne_top
  step_law st rows scale l st' h := by
    have : ∀ m, (st' m).prior = (st m).prior := fun m => update_prior (seqFin_inv _ _ h m)
    show (Measure.pi fun m => G.law (st' m).prior) = Measure.pi fun m => G.law (st m).prior
    simp_rw [this]

/-! ## Soft assignments -/

section soft
variable {Θ U : Type} [MeasurableSpace Θ] {Z : U → Type} [∀ u, Fintype (Z u)] (μ : Measure Θ)
  (e : (u : U) → Z u → ℝ) (d : (u : U) → Z u → Θ → ℝ≥0∞) (c : ℝ)

theorem soft_bound (hc : 0 ≤ c) (he : ∀ u z, 0 ≤ e u z) (hd : ∀ u z, Measurable (d u z)) (us : List U)
    (H : ∀ L : List (Σ u, Z u), (∀ p ∈ L, p.1 ∈ us) →
      ENNReal.ofReal ((L.map fun p => e p.1 p.2).prod * c) ≤ ∫⁻ θ, (L.map fun p => d p.1 p.2 θ).prod ∂μ) :
    ENNReal.ofReal ((us.map fun u => ∑ z, e u z).prod * c) ≤
      ∫⁻ θ, (us.map fun u => ∑ z, d u z θ).prod ∂μ := by
  suffices ∀ (vs : List U) (acc : List (Σ u, Z u)), (∀ v ∈ vs, v ∈ us) → (∀ p ∈ acc, p.1 ∈ us) →
      ENNReal.ofReal ((vs.map fun u => ∑ z, e u z).prod * ((acc.map fun p => e p.1 p.2).prod * c)) ≤
        ∫⁻ θ, (vs.map fun u => ∑ z, d u z θ).prod * (acc.map fun p => d p.1 p.2 θ).prod ∂μ by
    simpa using this us [] (fun _ h => h) (by simp)
  intro vs
  induction vs with
  | nil =>
    intro acc _ ha
    simpa using H acc ha
  | cons v vs ih =>
    intro acc hv ha
    have hm : ∀ z : Z v, Measurable fun θ => (vs.map fun u => ∑ z, d u z θ).prod *
        ((((⟨v, z⟩ : Σ u, Z u) :: acc).map fun p => d p.1 p.2 θ).prod) := fun z =>
      (measurable_list_prod (fun u θ => ∑ z, d u z θ)
        (fun u => Finset.measurable_sum _ fun z _ => hd u z) vs).mul
        (measurable_list_prod (fun (p : Σ u, Z u) θ => d p.1 p.2 θ) (fun p => hd _ _) _)
    have h1 : ∀ θ, ((v :: vs).map fun u => ∑ z, d u z θ).prod * (acc.map fun p => d p.1 p.2 θ).prod =
        ∑ z : Z v, (vs.map fun u => ∑ z, d u z θ).prod *
          (((⟨v, z⟩ : Σ u, Z u) :: acc).map fun p => d p.1 p.2 θ).prod := by
      intro θ
      simp only [List.map_cons, List.prod_cons]
      rw [Finset.sum_mul, Finset.sum_mul]
      exact Finset.sum_congr rfl fun z _ => by ring
    have h2 : ((v :: vs).map fun u => ∑ z, e u z).prod * ((acc.map fun p => e p.1 p.2).prod * c) =
        ∑ z : Z v, (vs.map fun u => ∑ z, e u z).prod *
          ((((⟨v, z⟩ : Σ u, Z u) :: acc).map fun p => e p.1 p.2).prod * c) := by
      simp only [List.map_cons, List.prod_cons]
      rw [Finset.sum_mul, Finset.sum_mul]
      exact Finset.sum_congr rfl fun z _ => by ring
    simp_rw [h1]
    rw [h2, lintegral_finsetSum _ fun z _ => hm z]
    rw [ENNReal.ofReal_sum_of_nonneg fun z _ => mul_nonneg (List.prod_nonneg (by
      intro a h
      obtain ⟨u, _, rfl⟩ := List.mem_map.1 h
      exact Finset.sum_nonneg fun z _ => he _ _)) (mul_nonneg (List.prod_nonneg (by
      intro a h
      obtain ⟨u, _, rfl⟩ := List.mem_map.1 h
      exact he _ _)) hc)]
    refine (Finset.sum_le_sum fun z _ =>
      ih (⟨v, z⟩ :: acc) (fun u h => hv u (by simp [h])) (by
        intro p hp
        rcases List.mem_cons.1 hp with rfl | hp
        · exact hv v (by simp)
        · exact ha p hp))

theorem soft_finite (hd : ∀ u z, Measurable (d u z)) (us : List U)
    (H : ∀ L : List (Σ u, Z u), (∀ p ∈ L, p.1 ∈ us) → ∫⁻ θ, (L.map fun p => d p.1 p.2 θ).prod ∂μ ≠ ⊤) :
    ∫⁻ θ, (us.map fun u => ∑ z, d u z θ).prod ∂μ ≠ ⊤ := by
  suffices ∀ (vs : List U) (acc : List (Σ u, Z u)), (∀ v ∈ vs, v ∈ us) → (∀ p ∈ acc, p.1 ∈ us) →
      ∫⁻ θ, (vs.map fun u => ∑ z, d u z θ).prod * (acc.map fun p => d p.1 p.2 θ).prod ∂μ ≠ ⊤ by
    simpa using this us [] (fun _ h => h) (by simp)
  intro vs
  induction vs with
  | nil =>
    intro acc _ ha
    simpa using H acc ha
  | cons v vs ih =>
    intro acc hv ha
    have hm : ∀ z : Z v, Measurable fun θ => (vs.map fun u => ∑ z, d u z θ).prod *
        ((((⟨v, z⟩ : Σ u, Z u) :: acc).map fun p => d p.1 p.2 θ).prod) := fun z =>
      (measurable_list_prod (fun u θ => ∑ z, d u z θ)
        (fun u => Finset.measurable_sum _ fun z _ => hd u z) vs).mul
        (measurable_list_prod (fun (p : Σ u, Z u) θ => d p.1 p.2 θ) (fun p => hd _ _) _)
    have h1 : ∀ θ, ((v :: vs).map fun u => ∑ z, d u z θ).prod * (acc.map fun p => d p.1 p.2 θ).prod =
        ∑ z : Z v, (vs.map fun u => ∑ z, d u z θ).prod *
          (((⟨v, z⟩ : Σ u, Z u) :: acc).map fun p => d p.1 p.2 θ).prod := by
      intro θ
      simp only [List.map_cons, List.prod_cons]
      rw [Finset.sum_mul, Finset.sum_mul]
      exact Finset.sum_congr rfl fun z _ => by ring
    simp_rw [h1]
    rw [lintegral_finsetSum _ fun z _ => hm z]
    refine ENNReal.sum_ne_top.2 fun z _ =>
      ih (⟨v, z⟩ :: acc) (fun u h => hv u (by simp [h])) (by
        intro p hp
        rcases List.mem_cons.1 hp with rfl | hp
        · exact hv v (by simp)
        · exact ha p hp)

end soft

end Verif.VB
