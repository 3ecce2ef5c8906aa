import Verif.Spec.VBTrain
import Verif.Props.DistsValid
import Verif.Props.DistsRoundTrip
import Verif.Props.KL
import Verif.Props.WishartKL
import Verif.Lemmas.ExceptList

/-!
# Conjugate families, the gain of an update, and well-behaved sets of models
-/

namespace Verif.VB

open Real Verif.Dists Verif.DistSpec Verif.Mixture Verif.Props

variable {X P : Type}

/-! ## Lists -/

theorem seqFin_ok {α : Type} {M : ℕ} (f : Fin M → Except Err α) (g : Fin M → α)
    (h : ∀ m, f m = .ok (g m)) : seqFin f = .ok g := by
  induction M with
  | zero => simp only [seqFin]; congr 1; funext m; exact m.elim0
  | succ M ih =>
    simp only [seqFin, h 0, ih (fun i => f i.succ) (fun i => g i.succ) (fun i => h i.succ)]
    congr 1
    funext m
    refine Fin.cases rfl (fun i => rfl) m

theorem vdot_vadd (t a b : List ℝ) (h : a.length = b.length) :
    vdot t (vadd a b) = vdot t a + vdot t b := by
  induction t generalizing a b with
  | nil => simp [vdot]
  | cons x t ih =>
    cases a with
    | nil =>
      cases b with
      | nil => simp [vdot, vadd]
      | cons y b => simp at h
    | cons y a =>
      cases b with
      | nil => simp at h
      | cons z b =>
        have := ih a b (by simpa using h)
        simp only [vdot, vadd, List.zipWith_cons_cons, List.sum_cons] at this ⊢
        rw [this]; ring

theorem vdot_vsmul (t a : List ℝ) (c : ℝ) : vdot t (vsmul c a) = c * vdot t a := by
  induction t generalizing a with
  | nil => simp [vdot]
  | cons x t ih =>
    cases a with
    | nil => simp [vdot, vsmul]
    | cons y a =>
      have := ih a
      simp only [vdot, vsmul, List.map_cons, List.zipWith_cons_cons, List.sum_cons] at this ⊢
      rw [this]; ring

theorem vsub_eq (a b : List ℝ) : vsub a b = vadd a (vsmul (-1) b) := by
  apply List.ext_getElem (by simp)
  intro i h1 h2
  simp [vsub, vadd, vsmul]
  ring

theorem vdot_vsub (t a b : List ℝ) (h : a.length = b.length) :
    vdot t (vsub a b) = vdot t a - vdot t b := by
  rw [vsub_eq a b, vdot_vadd _ _ _ (by simpa using h), vdot_vsmul]; ring

theorem vdot_replicate (t : List ℝ) (n : ℕ) : vdot t (List.replicate n 0) = 0 := by
  induction t generalizing n with
  | nil => simp [vdot]
  | cons x t ih =>
    cases n with
    | zero => simp [vdot]
    | succ n =>
      have := ih n
      simp only [vdot] at this ⊢
      rw [List.replicate_succ, List.zipWith_cons_cons, List.sum_cons, this]; ring

theorem vdot_wsum (t : List ℝ) (n : ℕ) (rows : List (ℝ × List ℝ)) (h : ∀ r ∈ rows, r.2.length = n) :
    vdot t (wsum n rows) = (rows.map fun r => r.1 * vdot t r.2).sum := by
  induction rows with
  | nil => simp [wsum, vdot_replicate]
  | cons r rows ih =>
    have h' : ∀ r ∈ rows, r.2.length = n := fun r hr => h r (by simp [hr])
    simp only [wsum, List.map_cons, List.sum_cons]
    rw [vdot_vadd _ _ _ (by rw [length_vsmul, length_wsum n rows h', h r (by simp)]), vdot_vsmul, ih h']

theorem vsmul_wsum (c : ℝ) (n : ℕ) (rows : List (ℝ × List ℝ)) :
    vsmul c (wsum n rows) = wsum n (rows.map fun r => (c * r.1, r.2)) := by
  induction rows with
  | nil => simp [wsum, vsmul]
  | cons r rows ih =>
    simp only [wsum, List.map_cons, ← ih]
    apply List.ext_getElem (by simp)
    intro i h1 h2
    simp [vadd, vsmul]
    ring

theorem sum_map_sub' {α : Type} (rows : List α) (f g : α → ℝ) :
    (rows.map fun r => f r - g r).sum = (rows.map f).sum - (rows.map g).sum := by
  induction rows with
  | nil => simp
  | cons r rows ih => simp only [List.map_cons, List.sum_cons, ih]; ring

/-! ## Conjugate families -/

/-- What the theorems need to know about a conjugate family. -/
structure Conj (fam : Family X P) (V : P → Prop) (XV : X → Prop) where
  N : P → List ℝ
  T : P → List ℝ
  A : P → ℝ
  base : ℝ
  nat_eq : ∀ p, V p → fam.natural p = .ok (N p)
  exp_eq : ∀ p, V p → fam.expStats p = .ok (T p)
  norm_eq : ∀ p, V p → fam.logNorm p = .ok (A p)
  len_N : ∀ p, V p → (N p).length = fam.sdim
  len_T : ∀ p, V p → (T p).length = fam.sdim
  dim_eq : ∀ p q, V p → V q → fam.dim p = fam.dim q
  len_stats : ∀ x, XV x → (fam.stats x).length = fam.sdim
  call_eq : ∀ p x, V p → XV x → fam.call (T p) (fam.stats x) = .ok (vdot (T p) (fam.stats x) + base)
  kl_nonneg : ∀ p q, V p → V q → 0 ≤ A q - A p - vdot (T p) (vsub (N q) (N p))
  update : ∀ (p0 p : P) (rows : List (ℝ × X)) (l : ℝ), V p0 → V p → (∀ r ∈ rows, 0 ≤ r.1 ∧ XV r.2) →
    0 < l → l ≤ 1 →
    ∃ p', fam.fromNatural (vadd (N p) (vsmul l (vsub (vadd (N p0)
        (wsum fam.sdim (rows.map fun r => (r.1, fam.stats r.2)))) (N p)))) = .ok p' ∧ V p' ∧
      N p' = vadd (N p) (vsmul l (vsub (vadd (N p0)
        (wsum fam.sdim (rows.map fun r => (r.1, fam.stats r.2)))) (N p)))

section
variable {fam : Family X P} {V : P → Prop} {XV : X → Prop} (C : Conj fam V XV)
include C

/-- The divergence in natural form. -/
noncomputable def Conj.D (p q : P) : ℝ := C.A q - C.A p - vdot (C.T p) (vsub (C.N q) (C.N p))

theorem Conj.kl_eq (p q : P) (hp : V p) (hq : V q) : fam.kl p q = .ok (C.D p q) := by
  unfold Family.kl
  rw [if_neg (by simpa using C.dim_eq p q hp hq), C.nat_eq p hp, C.nat_eq q hq, C.exp_eq p hp,
    C.norm_eq p hp, C.norm_eq q hq]
  show (if _ then _ else _) = _
  rw [if_neg (by simp [C.len_N p hp, C.len_N q hq, C.len_T p hp])]
  rfl

theorem Conj.paramKl_eq (c : CParam P) (hc : ParamValid V c) :
    fam.paramKl c = .ok (C.D c.post c.prior) := C.kl_eq _ _ hc.2 hc.1

theorem Conj.llh_eq (c : CParam P) (x : X) (hc : V c.post) (hx : XV x) :
    fam.llh c x = .ok (vdot (C.T c.post) (fam.stats x) + C.base) := by
  unfold Family.llh
  rw [C.exp_eq _ hc]
  exact C.call_eq _ _ hc hx

/-- The scaled statistics. -/
noncomputable def Conj.acc (_C : Conj fam V XV) (rows : List (ℝ × X)) (scale : ℝ) : List ℝ :=
  vsmul scale (wsum fam.sdim (rows.map fun r => (r.1, fam.stats r.2)))

theorem Conj.acc_eq (rows : List (ℝ × X)) (scale : ℝ) :
    C.acc rows scale = wsum fam.sdim ((rows.map fun r => (scale * r.1, r.2)).map
      fun r => (r.1, fam.stats r.2)) := by
  unfold Conj.acc
  rw [vsmul_wsum, List.map_map, List.map_map]
  rfl

theorem Conj.len_acc (rows : List (ℝ × X)) (scale : ℝ) (h : ∀ r ∈ rows, XV r.2) :
    (C.acc rows scale).length = fam.sdim := by
  unfold Conj.acc
  rw [length_vsmul, length_wsum]
  intro r hr
  obtain ⟨r', hr', rfl⟩ := List.mem_map.1 hr
  exact C.len_stats _ (h r' hr')

theorem Conj.vdot_acc (t : List ℝ) (rows : List (ℝ × X)) (scale : ℝ) (h : ∀ r ∈ rows, XV r.2) :
    vdot t (C.acc rows scale) = scale * (rows.map fun r => r.1 * vdot t (fam.stats r.2)).sum := by
  unfold Conj.acc
  rw [vdot_vsmul, vdot_wsum, List.map_map]
  · rfl
  · intro r hr
    obtain ⟨r', hr', rfl⟩ := List.mem_map.1 hr
    exact C.len_stats _ (h r' hr')

/-- The update and its gain. -/
theorem Conj.gain (c : CParam P) (rows : List (ℝ × X)) (scale l : ℝ) (hc : ParamValid V c)
    (hr : ∀ r ∈ rows, 0 ≤ r.1 ∧ XV r.2) (hs : 0 ≤ scale) (h0 : 0 < l) (h1 : l ≤ 1) :
    ∃ p', fam.update c (C.acc rows scale) l = .ok ⟨c.prior, p'⟩ ∧ V p' ∧
      C.N p' = vadd (C.N c.post) (vsmul l (vsub (vadd (C.N c.prior) (C.acc rows scale)) (C.N c.post))) ∧
      scale * (rows.map fun r => r.1 * (vdot (C.T p') (fam.stats r.2) -
          vdot (C.T c.post) (fam.stats r.2))).sum - (C.D p' c.prior - C.D c.post c.prior) =
        ((1 - l) * C.D p' c.post + C.D c.post p') / l := by
  obtain ⟨hp0, hp⟩ := hc
  have hx : ∀ r ∈ rows, XV r.2 := fun r h => (hr r h).2
  obtain ⟨p', e1, v1, e2⟩ := C.update c.prior c.post (rows.map fun r => (scale * r.1, r.2)) l hp0 hp
    (by
      intro r h
      obtain ⟨r', h', rfl⟩ := List.mem_map.1 h
      exact ⟨mul_nonneg hs (hr r' h').1, (hr r' h').2⟩) h0 h1
  rw [← C.acc_eq] at e1 e2
  have la := C.len_acc rows scale hx
  have l0 := C.len_N _ hp0
  have l1 := C.len_N _ hp
  have l2 := C.len_N _ v1
  refine ⟨p', ?_, v1, e2, ?_⟩
  · unfold Family.update
    rw [C.nat_eq _ hp0, C.nat_eq _ hp]
    show (if _ then _ else _) = _
    rw [if_neg (by simp [la, l0, l1]), e1]
    rfl
  have split : scale * (rows.map fun r => r.1 * (vdot (C.T p') (fam.stats r.2) -
      vdot (C.T c.post) (fam.stats r.2))).sum =
      vdot (C.T p') (C.acc rows scale) - vdot (C.T c.post) (C.acc rows scale) := by
    rw [C.vdot_acc _ _ _ hx, C.vdot_acc _ _ _ hx, ← mul_sub, ← sum_map_sub']
    congr 2
    apply List.map_congr_left
    intro r _
    ring
  rw [split]
  unfold Conj.D
  have key : ∀ t : List ℝ, vdot t (C.N p') = vdot t (C.N c.post) + l * (vdot t (C.N c.prior) +
      vdot t (C.acc rows scale) - vdot t (C.N c.post)) := by
    intro t
    rw [e2, vdot_vadd _ _ _ (by simp [la, l0, l1]), vdot_vsmul, vdot_vsub _ _ _ (by simp [la, l0, l1]),
      vdot_vadd _ _ _ (by simp [la, l0])]
  rw [vdot_vsub _ _ _ (by rw [l0, l2]), vdot_vsub _ _ _ (by rw [l0, l1]),
    vdot_vsub _ _ _ (by rw [l1, l2]), vdot_vsub _ _ _ (by rw [l1, l2]), key, key]
  field_simp
  ring

omit C in
theorem zipWith_map_sum {α : Type} (rows : List α) (f : α → ℝ) (g : α → ℝ) :
    (List.zipWith (fun r e => f r * e) rows (rows.map g)).sum = (rows.map fun r => f r * g r).sum := by
  induction rows with
  | nil => rfl
  | cons r rows ih => simp only [List.map_cons, List.zipWith_cons_cons, List.sum_cons, ih]

theorem Conj.objective_eq (c : CParam P) (rows : List (ℝ × X)) (scale : ℝ) (hc : ParamValid V c)
    (hr : ∀ r ∈ rows, XV r.2) :
    paramObjective fam c rows scale = .ok (scale * (rows.map fun r => r.1 *
      (vdot (C.T c.post) (fam.stats r.2) + C.base)).sum - C.D c.post c.prior) := by
  unfold paramObjective
  rw [mapM_ok_map _ (fun r => vdot (C.T c.post) (fam.stats r.2) + C.base) rows
    (fun r h => C.llh_eq c r.2 hc.2 (hr r h))]
  unfold Family.paramKl
  rw [C.kl_eq _ _ hc.2 hc.1]
  show Except.ok _ = _
  rw [zipWith_map_sum]

theorem Conj.updateGain : UpdateGain fam V XV := by
  intro c rows scale l hc hr hs h0 h1
  obtain ⟨p', e1, v1, e2, e3⟩ := C.gain c rows scale l hc hr hs h0 h1
  refine ⟨p', _, _, _, _, e1, v1, C.objective_eq c rows scale hc fun r h => (hr r h).2,
    C.objective_eq ⟨c.prior, p'⟩ rows scale ⟨hc.1, v1⟩ fun r h => (hr r h).2,
    C.kl_eq _ _ v1 hc.2, C.kl_eq _ _ hc.2 v1, C.kl_nonneg _ _ v1 hc.2, C.kl_nonneg _ _ hc.2 v1, ?_⟩
  rw [← e3]
  dsimp only
  have : (rows.map fun r => r.1 * (vdot (C.T p') (fam.stats r.2) + C.base)).sum -
      (rows.map fun r => r.1 * (vdot (C.T c.post) (fam.stats r.2) + C.base)).sum =
      (rows.map fun r => r.1 * (vdot (C.T p') (fam.stats r.2) -
          vdot (C.T c.post) (fam.stats r.2))).sum := by
    rw [← sum_map_sub']
    congr 1
    apply List.map_congr_left
    intro r _
    ring
  rw [← this]
  ring

theorem Conj.updateStrict (hz : ∀ p q, V p → V q → fam.kl p q = .ok 0 → p = q) :
    UpdateStrict fam V XV := by
  intro c rows scale l hc hr hs h0 h1
  obtain ⟨p', g, g', k, k', e1, v1, e2, e3, e4, e5, h4, h5, e6⟩ :=
    C.updateGain c rows scale l hc hr hs h0 h1
  have hl : 0 ≤ 1 - l := by linarith
  have hnn : 0 ≤ ((1 - l) * k + k') / l := by positivity
  refine ⟨p', g, g', e1, e2, e3, by linarith, fun h => ?_, fun h => ?_⟩
  · rw [h, sub_self, eq_comm, div_eq_zero_iff] at e6
    have h6 : (1 - l) * k + k' = 0 := e6.resolve_right h0.ne'
    have h7 : 0 ≤ (1 - l) * k := mul_nonneg hl h4
    have h8 : k' = 0 := by linarith
    rw [h8] at e5
    exact (hz _ _ hc.2 v1 e5).symm
  · subst h
    rw [e2] at e3
    exact (Except.ok.inj e3).symm

omit C in
theorem vadd_one_step (a b : List ℝ) (h : a.length = b.length) : vadd a (vsmul 1 (vsub b a)) = b := by
  induction a generalizing b with
  | nil => cases b with
    | nil => rfl
    | cons y b => simp at h
  | cons x a ih => cases b with
    | nil => simp at h
    | cons y b =>
      simp only [List.length_cons, Nat.add_right_cancel_iff] at h
      have := ih b h
      simp only [vadd, vsmul, vsub, List.zipWith_cons_cons, List.map_cons] at this ⊢
      rw [this]
      congr 1
      ring

theorem Conj.oneStepOptimal : OneStepOptimal fam V XV C.base := by
  intro prior rows scale hp hr hs
  obtain ⟨best, b1, b2, b3, _⟩ := C.gain ⟨prior, prior⟩ rows scale 1 ⟨hp, hp⟩ hr hs one_pos le_rfl
  have hx : ∀ r ∈ rows, XV r.2 := fun r h => (hr r h).2
  have la := C.len_acc rows scale hx
  have hupd : ∀ q, V q → fam.update ⟨prior, q⟩ (C.acc rows scale) 1 = .ok ⟨prior, best⟩ := by
    intro q hq
    rw [← b1]
    unfold Family.update
    rw [C.nat_eq _ hp, C.nat_eq _ hq]
    show (if _ then _ else _) = (if _ then _ else _)
    rw [if_neg (by simp [la, C.len_N _ hp, C.len_N _ hq]), if_neg (by simp [la, C.len_N _ hp]),
      vadd_one_step _ _ (by simp [la, C.len_N _ hp, C.len_N _ hq]),
      vadd_one_step _ _ (by simp [la, C.len_N _ hp])]
  have hN : C.N best = vadd (C.N prior) (C.acc rows scale) := by
    rw [b3]
    exact vadd_one_step _ _ (by simp [la, C.len_N _ hp])
  have hobj : ∀ q, V q → scale * (rows.map fun r => r.1 * (vdot (C.T q) (fam.stats r.2) + C.base)).sum -
      C.D q prior = C.A best - C.A prior + scale * (rows.map fun r => r.1 * C.base).sum - C.D q best := by
    intro q hq
    have e : (rows.map fun r => r.1 * (vdot (C.T q) (fam.stats r.2) + C.base)).sum =
        (rows.map fun r => r.1 * vdot (C.T q) (fam.stats r.2)).sum +
          (rows.map fun r => r.1 * C.base).sum := by
      rw [← List.sum_map_add]
      congr 1
      apply List.map_congr_left
      intro r _
      ring
    rw [e, mul_add, ← C.vdot_acc _ _ _ hx]
    unfold Conj.D
    rw [vdot_vsub _ _ _ (by rw [C.len_N _ hp, C.len_N _ hq]),
      vdot_vsub _ _ _ (by rw [C.len_N _ b2, C.len_N _ hq]), hN,
      vdot_vadd _ _ _ (by simp [la, C.len_N _ hp])]
    ring
  have hself : C.D best best = 0 := by
    unfold Conj.D
    rw [vdot_vsub _ _ _ rfl]
    ring
  refine ⟨best, _, _, b2, C.norm_eq _ hp, C.norm_eq _ b2, ?_, fun q hq => ⟨_, hupd q hq,
    C.kl_eq _ _ hq b2, C.kl_nonneg _ _ hq b2, ?_⟩⟩
  · rw [C.objective_eq ⟨prior, best⟩ rows scale ⟨hp, b2⟩ hx]
    dsimp only
    rw [hobj best b2, hself, sub_zero]
  · rw [C.objective_eq ⟨prior, q⟩ rows scale ⟨hp, hq⟩ hx]
    dsimp only
    rw [hobj q hq]

end

/-! ## The four families -/

section
variable {D : ℕ}

/-- One step of `trainRun` is one update. -/
theorem trainRun_single {K P : Type} [Field K] (natural : P → List K) (fromNatural : List K → Except Err P)
    (prior post : P) (l : K) (s : List K) (p : P)
    (h : trainRun natural fromNatural prior post [(l, s)] = .ok p) :
    natGradUpdate natural fromNatural prior post s l = .ok p := by
  simp only [trainRun] at h
  cases e : natGradUpdate natural fromNatural prior post s l with
  | error e' => rw [e] at h; cases h
  | ok p' => rw [e] at h; exact h

theorem dataDim_rows (rows : List (ℝ × List ℝ)) (l : ℝ) (h0 : 0 < l) (h1 : l ≤ 1)
    (hr : ∀ r ∈ rows, 0 ≤ r.1 ∧ r.2.length = D) : ValidSchedule D [(l, rows)] := by
  intro s hs
  simp only [List.mem_singleton] at hs
  subst hs
  exact ⟨h0, h1, fun d hd => (hr d hd).2, fun d hd => (hr d hd).1⟩

theorem vdot_comm' (a b : List ℝ) : vdot a b = vdot b a := by
  unfold vdot
  rw [List.zipWith_comm]
  simp only [mul_comm]

theorem normalCall_eq (D : ℕ) (t s : List ℝ) (h : t.length = s.length) :
    normalCall D t s = .ok (vdot t s + -(1/2) * (D : ℝ) * log (2 * π)) := by
  unfold normalCall llhDot
  rw [if_neg (by simp [h]), vdot_comm']

theorem ngFromNatural_scale (n : List ℝ) (p : NG ℝ) (h : ngFromNatural n = .ok p) :
    p.scale = -2 * n.getD (n.length - 2) 0 := by
  unfold ngFromNatural at h
  split_ifs at h
  rw [← Except.ok.inj h]

theorem ingFromNatural_scale (n : List ℝ) (p : ING ℝ) (h : ingFromNatural n = .ok p) :
    p.scale = -2 * n.getD (n.length - 2) 0 := by
  unfold ingFromNatural at h
  split_ifs at h
  rw [← Except.ok.inj h]

theorem ng_len {p : NG ℝ} (h : NGValid D p) : (ngNatural p).length = 2 * D + 2 := by
  rw [length_ngNatural _ (by rw [h.1, h.2.1]), h.1]

theorem ng_lenT {p : NG ℝ} (h : NGValid D p) : (ngExpStats p).length = 2 * D + 2 := by
  simp [ngExpStats, h.1, h.2.1]; omega

theorem ing_len {p : ING ℝ} (h : INGValid D p) : (ingNatural p).length = D + 3 := by
  simp [ingNatural, h.1]

theorem ing_lenT {p : ING ℝ} (h : INGValid D p) : (ingExpStats p).length = D + 3 := by
  simp [ingExpStats, h.1]

noncomputable def ngConj (hD : 1 ≤ D) : Conj (ngFam D) (NGValid D) (fun x => x.length = D) where
  N := ngNatural
  T := ngExpStats
  A := ngLogNorm
  base := -(1/2) * (D : ℝ) * log (2 * π)
  nat_eq _ _ := rfl
  exp_eq _ _ := rfl
  norm_eq _ _ := rfl
  len_N p h := ng_len h
  len_T p h := ng_lenT h
  dim_eq p q hp hq := by simp [ngFam, hp.1, hq.1, hp.2.1, hq.2.1]
  len_stats x h := by simp [ngFam, ngStats, h]; omega
  call_eq p x hp hx := normalCall_eq D _ _ (by
    rw [ng_lenT hp]
    simp [ngFam, ngStats, hx]; omega)
  kl_nonneg p q hp hq := by
    obtain ⟨v, e, h⟩ := C39_kl_nonneg hD (.normalGamma p) (.normalGamma q) hp hq (by constructor)
    rw [klDiv_value hD (.normalGamma p) (.normalGamma q) hp hq (by constructor)] at e
    rw [← Except.ok.inj e] at h
    exact h
  update p0 p rows l hp0 hp hr h0 h1 := by
    obtain ⟨p', e, hv⟩ := C31_normalgamma_stays_valid D p0 p hp0 hp [(l, rows)]
      (dataDim_rows rows l h0 h1 hr)
    have e' := trainRun_single _ _ _ _ _ _ _ e
    unfold natGradUpdate at e'
    refine ⟨p', e', hv, ?_⟩
    have hlen : (wsum (2 * D + 2) (rows.map fun r => (r.1, ngStats r.2))).length = 2 * D + 2 := by
      apply length_wsum
      intro r h
      obtain ⟨r', h', rfl⟩ := List.mem_map.1 h
      simp [ngStats, (hr r' h').2]; omega
    have e'' : ngFromNatural (vadd (ngNatural p) (vsmul l (vsub (vadd (ngNatural p0)
        (wsum (2 * D + 2) (rows.map fun r => (r.1, ngStats r.2)))) (ngNatural p)))) = .ok p' := e'
    show ngNatural p' = vadd (ngNatural p) (vsmul l (vsub (vadd (ngNatural p0)
        (wsum (2 * D + 2) (rows.map fun r => (r.1, ngStats r.2)))) (ngNatural p)))
    have hl : (vadd (ngNatural p) (vsmul l (vsub (vadd (ngNatural p0)
        (wsum (2 * D + 2) (rows.map fun r => (r.1, ngStats r.2)))) (ngNatural p)))).length =
        2 * D + 2 := by simp [ng_len hp, ng_len hp0, hlen]
    generalize vadd (ngNatural p) (vsmul l (vsub (vadd (ngNatural p0)
        (wsum (2 * D + 2) (rows.map fun r => (r.1, ngStats r.2)))) (ngNatural p))) = n at e'' hl
    have hs := ngFromNatural_scale n p' e''
    rw [hl] at hs
    obtain ⟨q, q1, _, _, q2⟩ := C35_normalgamma_roundtrip_converse D n hl (by
      intro hz
      have := hv.2.2.1
      rw [hs, show 2 * D + 2 - 2 = 2 * D by omega, hz] at this
      simp at this)
    rw [e''] at q1
    rw [Except.ok.inj q1, q2]

noncomputable def ingConj (hD : 1 ≤ D) : Conj (ingFam D) (INGValid D) (fun x => x.length = D) where
  N := ingNatural
  T := ingExpStats
  A := ingLogNorm
  base := -(1/2) * (D : ℝ) * log (2 * π)
  nat_eq _ _ := rfl
  exp_eq _ _ := rfl
  norm_eq _ _ := rfl
  len_N p h := ing_len h
  len_T p h := ing_lenT h
  dim_eq p q hp hq := by simp [ingFam, hp.1, hq.1]
  len_stats x h := by simp [ingFam, ingStats, h]
  call_eq p x hp hx := normalCall_eq D _ _ (by
    rw [ing_lenT hp]
    simp [ingFam, ingStats, hx])
  kl_nonneg p q hp hq := by
    obtain ⟨v, e, h⟩ := C39_kl_nonneg hD (.isoNormalGamma p) (.isoNormalGamma q) hp hq (by constructor)
    rw [klDiv_value hD (.isoNormalGamma p) (.isoNormalGamma q) hp hq (by constructor)] at e
    rw [← Except.ok.inj e] at h
    exact h
  update p0 p rows l hp0 hp hr h0 h1 := by
    obtain ⟨p', e, hv⟩ := C31_isonormalgamma_stays_valid D p0 p hp0 hp [(l, rows)]
      (dataDim_rows rows l h0 h1 hr)
    have e' := trainRun_single _ _ _ _ _ _ _ e
    unfold natGradUpdate at e'
    refine ⟨p', e', hv, ?_⟩
    have hlen : (wsum (D + 3) (rows.map fun r => (r.1, ingStats r.2))).length = D + 3 := by
      apply length_wsum
      intro r h
      obtain ⟨r', h', rfl⟩ := List.mem_map.1 h
      simp [ingStats, (hr r' h').2]
    have e'' : ingFromNatural (vadd (ingNatural p) (vsmul l (vsub (vadd (ingNatural p0)
        (wsum (D + 3) (rows.map fun r => (r.1, ingStats r.2)))) (ingNatural p)))) = .ok p' := e'
    show ingNatural p' = vadd (ingNatural p) (vsmul l (vsub (vadd (ingNatural p0)
        (wsum (D + 3) (rows.map fun r => (r.1, ingStats r.2)))) (ingNatural p)))
    have hl : (vadd (ingNatural p) (vsmul l (vsub (vadd (ingNatural p0)
        (wsum (D + 3) (rows.map fun r => (r.1, ingStats r.2)))) (ingNatural p)))).length =
        D + 3 := by simp [ing_len hp, ing_len hp0, hlen]
    generalize vadd (ingNatural p) (vsmul l (vsub (vadd (ingNatural p0)
        (wsum (D + 3) (rows.map fun r => (r.1, ingStats r.2)))) (ingNatural p))) = n at e'' hl
    have hs := ingFromNatural_scale n p' e''
    rw [hl] at hs
    obtain ⟨q, q1, _, q2⟩ := C36_isonormalgamma_roundtrip_converse D n hl (by
      intro hz
      have := hv.2.1
      rw [hs, show D + 3 - 2 = D + 1 by omega, hz] at this
      simp at this)
    rw [e''] at q1
    rw [Except.ok.inj q1, q2]

theorem dir_len {c : List ℝ} (hD : 1 ≤ D) (h : DirValid D c) : (dirNatural c).length = D := by
  simp [dirNatural, h.1]; omega

theorem dir_lenT {c : List ℝ} (hD : 1 ≤ D) (h : DirValid D c) : (dirExpStats c).length = D := by
  simp [dirExpStats, h.1]; omega

theorem ne_nil_of_length {x : List ℝ} (hD : 1 ≤ D) (h : x.length = D) : x ≠ [] := by
  rintro rfl
  simp at h
  omega

noncomputable def dirConj (hD : 1 ≤ D) : Conj (dirFam D) (DirValid D) (CountsValid D) where
  N := dirNatural
  T := dirExpStats
  A := dirLogNorm
  base := 0
  nat_eq _ _ := rfl
  exp_eq _ _ := rfl
  norm_eq _ _ := rfl
  len_N p h := dir_len hD h
  len_T p h := dir_lenT hD h
  dim_eq p q hp hq := by simp [dirFam, hp.1, hq.1]
  len_stats x h := by
    show (catStats x).length = D
    rw [length_catStats _ (ne_nil_of_length hD h.1), h.1]
  call_eq p x hp hx := by
    show catCall _ (catStats x) = _
    unfold catCall llhDot
    rw [if_neg (by
      rw [length_catStats _ (ne_nil_of_length hD hx.1), hx.1, dir_lenT hD hp]; simp), vdot_comm',
      add_zero]
    rfl
  kl_nonneg p q hp hq := by
    obtain ⟨v, e, h⟩ := C39_kl_nonneg hD (.dirichlet p) (.dirichlet q) hp hq (by constructor)
    rw [klDiv_value hD (.dirichlet p) (.dirichlet q) hp hq (by constructor)] at e
    rw [← Except.ok.inj e] at h
    exact h
  update p0 p rows l hp0 hp hr h0 h1 := by
    obtain ⟨p', e, hv⟩ := C31_dirichlet_stays_valid D hD p0 p hp0 hp [(l, rows)]
      (dataDim_rows rows l h0 h1 fun r h => ⟨(hr r h).1, (hr r h).2.1⟩) (by
        intro s hs
        simp only [List.mem_singleton] at hs
        subst hs
        exact fun d hd => (hr d hd).2.2)
    have e' := trainRun_single _ _ _ _ _ _ _ e
    unfold natGradUpdate at e'
    exact ⟨p', e', hv, (C32_dirichlet_roundtrip_converse _ _ e').1⟩

/-- A valid Normal-Wishart of dimension `D`. -/
def NWValidD (D : ℕ) (p : Σ D : ℕ, NW D) : Prop := p.1 = D ∧ NWValid p.2

theorem nw_len (p : NW D) : (nwN p).length = D + D * D + 2 := by
  unfold nwN; rw [length_nwEnc]

theorem nw_lenT (p : NW D) : (nwT p).length = D + D * D + 2 := by
  unfold nwT; rw [length_nwTBlocks]

theorem nw_update (prior post : NW D) (hp : NWValid prior) (hq : NWValid post) (data : WData D) (t : ℝ)
    (hr : ∀ e ∈ data, 0 ≤ e.1) (h0 : 0 < t) (h1 : t ≤ 1) :
    ∃ p : NW D, nwFromNatural (vadd (nwN post) (vsmul t (vsub (vadd (nwN prior)
        (wsum (D + D * D + 2) (data.map fun e => (e.1, nwStats e.2)))) (nwN post)))) = .ok ⟨D, p⟩ ∧
      NWValid p ∧ nwN p = vadd (nwN post) (vsmul t (vsub (vadd (nwN prior)
        (wsum (D + D * D + 2) (data.map fun e => (e.1, nwStats e.2)))) (nwN post))) := by
  have hNV := nv_add (valid_nv prior hp) (wcount_nonneg data hr) (wsecond_symm data)
    (stats_semi data hr)
  have hc := nv_convex (valid_nv post hq) hNV h0 h1
  have hn := wcount_nonneg data hr
  have hd : (-1 : ℝ) < (post.dof - D) + t * (prior.dof - D + wcount data - (post.dof - D)) := by
    have a1 := hp.2.2
    have a2 := hq.2.2
    have : (post.dof - D) + t * (prior.dof - D + wcount data - (post.dof - D)) =
      (1 - t) * (post.dof - D) + t * (prior.dof - D + wcount data) := by ring
    rw [this]
    have b1 : -(1 - t) ≤ (1 - t) * (post.dof - D) := by nlinarith
    have b2 : -t < t * (prior.dof - D + wcount data) := by nlinarith
    linarith
  obtain ⟨e1, e2⟩ := decode_valid _ _ _ _ hc hd
  rw [wsum_nwStats]
  unfold nwN
  rw [nwEnc_vadd, nwEnc_vsub, nwEnc_vsmul, nwEnc_vadd]
  refine ⟨_, e1, e2, ?_⟩
  obtain ⟨_, q2⟩ := C37_normalwishart_converse _ (length_nwEnc _ _ _ _) (by
    rw [length_nwEnc]
    unfold nwEnc
    rw [List.getD_append_right _ _ _ _ (by simp [length_flat])]
    simp [length_flat]
    exact hc.1.ne') _ e1
  have := nwNatural_eq _ e2
  rw [q2] at this
  exact (Except.ok.inj this).symm

noncomputable def nwConj : Conj (nwFam D) (NWValidD D) (fun _ => True) where
  N p := nwN p.2
  T p := nwT p.2
  A p := nwA p.2
  base := -(1/2) * (D : ℝ) * log (2 * π)
  nat_eq p h := nwNatural_eq _ h.2
  exp_eq p h := nwExpStats_eq _ h.2
  norm_eq p h := nwLogNorm_eq _ h.2
  len_N p h := by rw [nw_len, h.1]; rfl
  len_T p h := by rw [nw_lenT, h.1]; rfl
  dim_eq p q hp hq := by simp [nwFam, hp.1, hq.1]
  len_stats x _ := by
    show (nwStats x).length = D + D * D + 2
    rw [nwStats_eq, length_nwEnc]
  call_eq p x hp hx := normalCall_eq D _ _ (by
    show (nwT p.2).length = (nwStats x).length
    rw [nwStats_eq, length_nwEnc, nw_lenT, hp.1])
  kl_nonneg p q hp hq := by
    obtain ⟨D1, p⟩ := p
    obtain ⟨D2, q⟩ := q
    obtain ⟨h1, hp⟩ := hp
    obtain ⟨h2, hq⟩ := hq
    dsimp only at h1 h2
    subst h1
    subst h2
    exact nwKlVal_nonneg p q hp hq
  update p0 p rows l hp0 hp hr h0 h1 := by
    obtain ⟨D1, p⟩ := p
    obtain ⟨D2, p0⟩ := p0
    obtain ⟨h1', hp⟩ := hp
    obtain ⟨h2', hp0⟩ := hp0
    dsimp only at h1' h2' hp hp0
    subst h1'
    subst h2'
    show ∃ p', nwFromNatural (vadd (nwN p) (vsmul l (vsub (vadd (nwN p0)
        (wsum _ (rows.map fun r => (r.1, nwStats r.2)))) (nwN p)))) = .ok p' ∧ NWValidD _ p' ∧
      nwN p'.2 = vadd (nwN p) (vsmul l (vsub (vadd (nwN p0)
        (wsum _ (rows.map fun r => (r.1, nwStats r.2)))) (nwN p)))
    obtain ⟨q, e, hv⟩ := nw_update p0 p hp0 hp rows l (fun r h => (hr r h).1) h0 h1
    exact ⟨⟨_, q⟩, e, ⟨rfl, hv.1⟩, hv.2⟩

end

end Verif.VB
