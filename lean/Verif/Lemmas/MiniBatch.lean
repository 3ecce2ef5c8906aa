import Verif.Spec.MiniBatch
import Verif.Lemmas.VBTrain

/-! # Lemmas about training on mini-batches -/

namespace Verif.VB

open Real Verif Verif.Dists

variable {X P : Type}

theorem getD_vsub_eq (a b : List ℝ) (h : a.length = b.length) (i : ℕ) : (vsub a b).getD i 0 = a.getD i 0 - b.getD i 0 := by
  rw [vsub_eq, getD_vadd _ _ (by simpa using h), getD_vsmul]
  ring

/-! ## Moving a number towards others -/

/-- Move `x` by the share `l` of the way to each number in turn. -/
noncomputable def relax (l : ℝ) : ℝ → List ℝ → ℝ
  | x, [] => x
  | x, g :: gs => relax l (x + l * (g - x)) gs

theorem relax_append (l x : ℝ) (a b : List ℝ) : relax l x (a ++ b) = relax l (relax l x a) b := by
  induction a generalizing x with
  | nil => rfl
  | cons g a ih => exact ih _

theorem relax_sub (l x y : ℝ) (gs : List ℝ) : relax l x gs - relax l y gs = (1 - l) ^ gs.length * (x - y) := by
  induction gs generalizing x y with
  | nil => simp [relax]
  | cons g gs ih =>
    show relax l (x + l * (g - x)) gs - relax l (y + l * (g - y)) gs = _
    rw [ih, List.length_cons, pow_succ]
    ring

theorem relax_bounds {l lo hi : ℝ} (h0 : 0 ≤ l) (h1 : l ≤ 1) (gs : List ℝ) (hg : ∀ g ∈ gs, lo ≤ g ∧ g ≤ hi) (x : ℝ) (hx : lo ≤ x ∧ x ≤ hi) :
    lo ≤ relax l x gs ∧ relax l x gs ≤ hi := by
  induction gs generalizing x with
  | nil => exact hx
  | cons g gs ih =>
    have hg0 := hg g List.mem_cons_self
    refine ih (fun g' h => hg g' (List.mem_cons_of_mem _ h)) _ ⟨?_, ?_⟩ <;> nlinarith

/-- The fixed point of a cycle. -/
theorem relax_fixed {l : ℝ} (h0 : 0 < l) (h1 : l ≤ 1) (gs : List ℝ) (hne : gs ≠ []) : ∃ c, relax l c gs = c := by
  have hr : (1 - l) ^ gs.length < 1 :=
    pow_lt_one₀ (by linarith) (by linarith) (by simpa using hne)
  refine ⟨relax l 0 gs / (1 - (1 - l) ^ gs.length), ?_⟩
  have h := relax_sub l (relax l 0 gs / (1 - (1 - l) ^ gs.length)) 0 gs
  have h2 : 1 - (1 - l) ^ gs.length ≠ 0 := by linarith
  rw [sub_eq_iff_eq_add] at h
  rw [h]
  field_simp
  ring

theorem relax_fixed_bounds {l lo hi : ℝ} (h0 : 0 < l) (h1 : l ≤ 1) (gs : List ℝ) (hne : gs ≠ []) (hg : ∀ g ∈ gs, lo ≤ g ∧ g ≤ hi) (c : ℝ)
    (hc : relax l c gs = c) : lo ≤ c ∧ c ≤ hi := by
  have hr : (1 - l) ^ gs.length < 1 :=
    pow_lt_one₀ (by linarith) (by linarith) (by simpa using hne)
  obtain ⟨g, hgm⟩ := List.exists_mem_of_ne_nil gs hne
  have hlh : lo ≤ hi := (hg g hgm).1.trans (hg g hgm).2
  constructor
  · by_contra h
    have h2 := relax_sub l c lo gs
    have h3 := (relax_bounds h0.le h1 gs hg lo ⟨le_rfl, hlh⟩).1
    rw [hc] at h2
    nlinarith
  · by_contra h
    have h2 := relax_sub l c hi gs
    have h3 := (relax_bounds h0.le h1 gs hg hi ⟨hlh, le_rfl⟩).2
    rw [hc] at h2
    nlinarith

/-- The moves add up. -/
theorem relax_sum (l x : ℝ) (gs : List ℝ) :
    relax l x gs = x + l * (gs.sum - ∑ j ∈ Finset.range gs.length, relax l x (gs.take j)) := by
  induction gs generalizing x with
  | nil => simp [relax]
  | cons g gs ih =>
    rw [List.length_cons, Finset.sum_range_succ']
    have : ∀ j, relax l x ((g :: gs).take (j + 1)) = relax l (x + l * (g - x)) (gs.take j) := fun j => rfl
    simp only [this]
    show relax l (x + l * (g - x)) gs = _
    rw [ih, List.sum_cons, List.take_zero]
    show _ = x + l * (g + gs.sum - (_ + x))
    ring

theorem relax_cycles (l c x : ℝ) (gs : List ℝ) (hc : relax l c gs = c) (e : ℕ) :
    relax l x (List.replicate e gs).flatten - c = (1 - l) ^ (gs.length * e) * (x - c) := by
  induction e generalizing x with
  | zero => simp [relax]
  | succ e ih =>
    rw [List.replicate_succ, List.flatten_cons, relax_append, ih]
    have := relax_sub l x c gs
    rw [hc] at this
    rw [this, Nat.mul_succ, pow_add]
    ring

theorem relax_drift {l lo hi : ℝ} (h0 : 0 ≤ l) (h1 : l ≤ 1) (gs : List ℝ) (hg : ∀ g ∈ gs, lo ≤ g ∧ g ≤ hi) (x : ℝ) (hx : lo ≤ x ∧ x ≤ hi) :
    |relax l x gs - x| ≤ gs.length * (l * (hi - lo)) := by
  induction gs generalizing x with
  | nil => simp [relax]
  | cons g gs ih =>
    have hg0 := hg g List.mem_cons_self
    have h2 : lo ≤ x + l * (g - x) ∧ x + l * (g - x) ≤ hi := by constructor <;> nlinarith
    have h3 := ih (fun g' h => hg g' (List.mem_cons_of_mem _ h)) _ h2
    have h4 : |l * (g - x)| ≤ l * (hi - lo) := by
      rw [abs_mul, abs_of_nonneg h0]
      exact mul_le_mul_of_nonneg_left (abs_le.2 ⟨by linarith, by linarith⟩) h0
    have h5 : relax l x (g :: gs) - x = (relax l (x + l * (g - x)) gs - (x + l * (g - x))) + l * (g - x) := by
      show relax l (x + l * (g - x)) gs - x = _
      ring
    rw [h5, List.length_cons]
    push_cast
    linarith [abs_add_le (relax l (x + l * (g - x)) gs - (x + l * (g - x))) (l * (g - x))]

/-! ## One step -/

/-- The scale of a batch. -/
noncomputable def miniScale (mb : ℕ) (ds : ℤ) : ℝ := ((if ds ≤ 0 then (mb : ℤ) else ds : ℤ) : ℝ) / (mb : ℝ)

theorem batchScale_mini {b : List X} (hb : b ≠ []) (ds : ℤ) : batchScale b.length ds = .ok (miniScale b.length ds) := by
  unfold batchScale
  rw [if_neg (by simpa using hb)]
  rfl

theorem miniScale_nonneg (mb : ℕ) (ds : ℤ) : 0 ≤ miniScale mb ds := by
  unfold miniScale
  refine div_nonneg ?_ (Nat.cast_nonneg _)
  split_ifs with h
  · simp
  · exact_mod_cast (not_le.1 h).le

section
variable {fam : Family X P} {V : P → Prop} {XV : X → Prop} (C : Conj fam V XV)
include C

/-- Natural parameters of the exact posterior of a batch. -/
noncomputable def Conj.goal (prior : P) (b : List X) (scale : ℝ) : List ℝ :=
  vadd (C.N prior) (C.acc (b.map fun x => (1, x)) scale)

theorem Conj.len_goal (prior : P) (hp : V prior) (b : List X) (hb : ∀ x ∈ b, XV x) (scale : ℝ) : (C.goal prior b scale).length = fam.sdim := by
  unfold Conj.goal
  rw [length_vadd, C.len_N _ hp, C.len_acc, min_self]
  intro r hr
  obtain ⟨x, hx, rfl⟩ := List.mem_map.1 hr
  exact hb x hx

theorem Conj.goal_coord (prior : P) (hp : V prior) (b : List X) (hb : ∀ x ∈ b, XV x) (scale : ℝ) (i : ℕ) :
    (C.goal prior b scale).getD i 0 = (C.N prior).getD i 0 + scale * (b.map fun x => (fam.stats x).getD i 0).sum := by
  have hx : ∀ r ∈ b.map (fun x => ((1 : ℝ), x)), XV r.2 := by
    intro r hr
    obtain ⟨x, hx, rfl⟩ := List.mem_map.1 hr
    exact hb x hx
  unfold Conj.goal
  rw [getD_vadd _ _ (by rw [C.len_N _ hp, C.len_acc _ _ hx])]
  unfold Conj.acc
  rw [getD_vsmul, getD_wsum, List.map_map, List.map_map]
  · congr 3
    refine List.map_congr_left fun x _ => ?_
    simp
  · intro r hr
    obtain ⟨r', hr', rfl⟩ := List.mem_map.1 hr
    exact C.len_stats _ (hx r' hr')

theorem Conj.miniElbo_ok (c : CParam P) (hc : ParamValid V c) (b : List X) (hne : b ≠ []) (hb : ∀ x ∈ b, XV x) (ds : ℤ) :
    ∃ v, miniElbo fam c b ds = .ok v := by
  unfold miniElbo
  rw [batchScale_mini hne, mapM_ok_map _ _ b (fun x hx => C.llh_eq c x hc.2 (hb x hx)), C.paramKl_eq c hc]
  exact ⟨_, rfl⟩

theorem Conj.mini_step (c : CParam P) (hc : ParamValid V c) (b : List X) (hne : b ≠ []) (hb : ∀ x ∈ b, XV x) (ds : ℤ) (l : ℝ) (h0 : 0 < l)
    (h1 : l ≤ 1) :
    ∃ p', miniStep fam c b ds l = .ok ⟨c.prior, p'⟩ ∧ V p' ∧
      C.N p' = vadd (C.N c.post) (vsmul l (vsub (C.goal c.prior b (miniScale b.length ds)) (C.N c.post))) ∧
      fam.fromNatural (C.N p') = .ok p' := by
  obtain ⟨hp0, hp⟩ := hc
  have hx : ∀ r ∈ b.map (fun x => ((1 : ℝ), x)), XV r.2 := by
    intro r hr
    obtain ⟨x, hx, rfl⟩ := List.mem_map.1 hr
    exact hb x hx
  obtain ⟨p', e1, v1, e2⟩ := C.update c.prior c.post ((b.map fun x => ((1 : ℝ), x)).map fun r => (miniScale b.length ds * r.1, r.2)) l hp0 hp
    (by
      intro r h
      obtain ⟨r', h', rfl⟩ := List.mem_map.1 h
      obtain ⟨x, hx', rfl⟩ := List.mem_map.1 h'
      exact ⟨mul_nonneg (miniScale_nonneg _ _) zero_le_one, hb x hx'⟩) h0 h1
  rw [← C.acc_eq] at e1 e2
  refine ⟨p', ?_, v1, e2, by rw [e2]; exact e1⟩
  obtain ⟨v, hv⟩ := C.miniElbo_ok c ⟨hp0, hp⟩ b hne hb ds
  unfold miniStep
  rw [hv, batchScale_mini hne]
  have hacc : vsmul (miniScale b.length ds) (wsum fam.sdim (b.map fun x => (1, fam.stats x)))
      = C.acc (b.map fun x => (1, x)) (miniScale b.length ds) := by
    unfold Conj.acc
    rw [List.map_map]
    rfl
  show fam.update c _ l = _
  rw [hacc]
  unfold Family.update
  rw [C.nat_eq _ hp0, C.nat_eq _ hp]
  show (if _ then _ else _) = _
  rw [if_neg (by simp [C.len_acc _ _ hx, C.len_N _ hp0, C.len_N _ hp]), e1]
  rfl

theorem Conj.mini_coord (c : CParam P) (hc : ParamValid V c) (b : List X) (hb : ∀ x ∈ b, XV x) (scale l : ℝ) (i : ℕ) :
    (vadd (C.N c.post) (vsmul l (vsub (C.goal c.prior b scale) (C.N c.post)))).getD i 0
      = (C.N c.post).getD i 0 + l * ((C.goal c.prior b scale).getD i 0 - (C.N c.post).getD i 0) := by
  have h1 := C.len_goal _ hc.1 b hb scale
  have h2 := C.len_N _ hc.2
  rw [getD_vadd _ _ (by simp [h1, h2]), getD_vsmul, getD_vsub_eq _ _ (by rw [h1, h2])]

/-! ## Sequences of steps -/

omit C in
theorem miniTrain_append (ds : ℤ) (a b : List (List X × ℝ)) (c : CParam P) :
    miniTrain fam ds c (a ++ b) = (miniTrain fam ds c a >>= fun c' => miniTrain fam ds c' b) := by
  induction a generalizing c with
  | nil => rfl
  | cons x a ih =>
    obtain ⟨x, l⟩ := x
    show (miniStep fam c x ds l >>= fun c' => miniTrain fam ds c' (a ++ b)) = _
    show _ = ((miniStep fam c x ds l >>= fun c' => miniTrain fam ds c' a) >>= _)
    cases miniStep fam c x ds l with
    | error e => rfl
    | ok c' => exact ih c'

theorem Conj.mini_const (ds : ℤ) (l : ℝ) (h0 : 0 < l) (h1 : l ≤ 1) (bs : List (List X)) (hbs : ∀ b ∈ bs, b ≠ [] ∧ ∀ x ∈ b, XV x) (c : CParam P)
    (hc : ParamValid V c) :
    ∃ p', miniTrain fam ds c (bs.map fun b => (b, l)) = .ok ⟨c.prior, p'⟩ ∧ V p' ∧ ∀ i, (C.N p').getD i 0
      = relax l ((C.N c.post).getD i 0) (bs.map fun b => (C.goal c.prior b (miniScale b.length ds)).getD i 0) := by
  induction bs generalizing c with
  | nil => exact ⟨c.post, rfl, hc.2, fun i => rfl⟩
  | cons b bs ih =>
    have hb := hbs b List.mem_cons_self
    obtain ⟨p1, e1, v1, n1, _⟩ := C.mini_step c hc b hb.1 hb.2 ds l h0 h1
    obtain ⟨p2, e2, v2, n2⟩ := ih (fun b' h => hbs b' (List.mem_cons_of_mem _ h)) ⟨c.prior, p1⟩ ⟨hc.1, v1⟩
    refine ⟨p2, ?_, v2, fun i => ?_⟩
    · show (miniStep fam c b ds l >>= _) = _
      rw [e1]
      exact e2
    · rw [n2]
      show relax l ((C.N p1).getD i 0) _ = _
      rw [n1, C.mini_coord c hc b hb.2]
      rfl

theorem Conj.mini_trace (ds : ℤ) : ∀ {n : ℕ} (b : Fin n → List X) (l : Fin n → ℝ), (∀ k, b k ≠ [] ∧ ∀ x ∈ b k, XV x) → (∀ k, 0 < l k ∧ l k ≤ 1) →
    ∀ (c : CParam P), ParamValid V c → ∃ p', miniTrain fam ds c (List.ofFn fun k => (b k, l k)) = .ok ⟨c.prior, p'⟩ ∧ V p' ∧
      ∀ i, (C.N p').getD i 0 = (∏ k, (1 - l k)) * (C.N c.post).getD i 0
        + ∑ k, (l k * ∏ j ∈ Finset.Ioi k, (1 - l j)) * (C.goal c.prior (b k) (miniScale (b k).length ds)).getD i 0 := by
  intro n
  induction n with
  | zero =>
    intro b l _ _ c hc
    exact ⟨c.post, rfl, hc.2, fun i => by simp⟩
  | succ n ih =>
    intro b l hb hl c hc
    obtain ⟨p1, e1, v1, n1, _⟩ := C.mini_step c hc (b 0) (hb 0).1 (hb 0).2 ds (l 0) (hl 0).1 (hl 0).2
    obtain ⟨p2, e2, v2, n2⟩ := ih (fun k => b k.succ) (fun k => l k.succ) (fun k => hb _) (fun k => hl _) ⟨c.prior, p1⟩ ⟨hc.1, v1⟩
    refine ⟨p2, ?_, v2, fun i => ?_⟩
    · rw [List.ofFn_succ]
      show (miniStep fam c (b 0) ds (l 0) >>= _) = _
      rw [e1]
      exact e2
    · rw [n2, Fin.prod_univ_succ, Fin.sum_univ_succ, Fin.prod_Ioi_zero]
      show _ * (C.N p1).getD i 0 + _ = _
      rw [n1, C.mini_coord c hc (b 0) (hb 0).2]
      simp only [Fin.prod_Ioi_succ]
      ring

/-- The exact posterior. -/
theorem Conj.exact (prior : P) (hp : V prior) (b : List X) (hne : b ≠ []) (hb : ∀ x ∈ b, XV x) (ds : ℤ) (hds : 0 < ds) :
    ∃ best, ExactPosterior fam V prior b ds best ∧ C.N best = C.goal prior b (miniScale b.length ds) ∧ fam.fromNatural (C.N best) = .ok best ∧
      ∀ q, V q → miniStep fam ⟨prior, q⟩ b ds 1 = .ok ⟨prior, best⟩ := by
  have hsc : miniScale b.length ds = (ds : ℝ) / b.length := by
    unfold miniScale
    rw [if_neg (not_le.2 hds)]
  have hrow : ∀ r ∈ b.map (fun x => ((1 : ℝ), x)), 0 ≤ r.1 ∧ XV r.2 := by
    intro r hr
    obtain ⟨x, hx, rfl⟩ := List.mem_map.1 hr
    exact ⟨zero_le_one, hb x hx⟩
  have hstep : ∀ q, V q → ∃ p', miniStep fam ⟨prior, q⟩ b ds 1 = .ok ⟨prior, p'⟩ ∧ V p' ∧ C.N p' = C.goal prior b (miniScale b.length ds) ∧
      fam.fromNatural (C.N p') = .ok p' := by
    intro q hq
    obtain ⟨p', e, v, n, f⟩ := C.mini_step ⟨prior, q⟩ ⟨hp, hq⟩ b hne hb ds 1 one_pos le_rfl
    refine ⟨p', e, v, ?_, f⟩
    rw [n]
    exact vadd_one_step _ _ (by rw [C.len_N _ hq, C.len_goal _ hp _ hb])
  obtain ⟨best, e, v, n, f⟩ := hstep prior hp
  refine ⟨best, ⟨v, fun q hq => ?_⟩, n, f, fun q hq => ?_⟩
  · obtain ⟨best', a0, a1, _, _, _, o1, o2⟩ := C.oneStepOptimal prior (b.map fun x => ((1 : ℝ), x)) (ds / b.length) hp hrow
      (by rw [← hsc]; exact miniScale_nonneg _ _)
    have hacc : vsmul (miniScale b.length ds) (wsum fam.sdim (b.map fun x => (1, fam.stats x)))
        = vsmul ((ds : ℝ) / b.length) (wsum fam.sdim ((b.map fun x => ((1 : ℝ), x)).map fun r => (r.1, fam.stats r.2))) := by
      rw [List.map_map, hsc]
      rfl
    have hbb : best' = best := by
      obtain ⟨k, u, _⟩ := o2 prior hp
      obtain ⟨w, hw⟩ := C.miniElbo_ok ⟨prior, prior⟩ ⟨hp, hp⟩ b hne hb ds
      unfold miniStep at e
      rw [hw, batchScale_mini hne] at e
      have e' : fam.update ⟨prior, prior⟩ (vsmul (miniScale b.length ds) (wsum fam.sdim (b.map fun x => (1, fam.stats x)))) 1
          = .ok ⟨prior, best⟩ := e
      rw [hacc, u] at e'
      injection e' with e'
      injection e'
    subst hbb
    obtain ⟨k, _, _, hk, o3⟩ := o2 q hq
    exact ⟨_, _, o3, o1, by linarith⟩
  · obtain ⟨p', e', _, n', f'⟩ := hstep q hq
    rw [e']
    rw [n', ← n, f] at f'
    rw [Except.ok.inj f']

theorem Conj.mini_online (prior : P) (hp : V prior) (ds : ℤ) (hds : 0 < ds) (bs : List (List X)) (hbs : ∀ b ∈ bs, b ≠ [] ∧ ∀ x ∈ b, XV x)
    (old : List X) (hold : ∀ x ∈ old, XV x) (p : P) (hv : V p) (hn : old ≠ [] → C.N p = C.goal prior old (miniScale old.length ds)) :
    ∃ p', miniTrain fam ds ⟨prior, p⟩ (onlineRates old.length bs) = .ok ⟨prior, p'⟩ ∧ V p' ∧
      (old ++ bs.flatten ≠ [] → C.N p' = C.goal prior (old ++ bs.flatten) (miniScale (old ++ bs.flatten).length ds)) ∧
      (bs ≠ [] → fam.fromNatural (C.N p') = .ok p') := by
  induction bs generalizing old p with
  | nil => exact ⟨p, rfl, hv, by simpa using hn, fun h => absurd rfl h⟩
  | cons b bs ih =>
    have hb := hbs b List.mem_cons_self
    have hm : (0 : ℝ) < b.length := by exact_mod_cast List.length_pos_of_ne_nil hb.1
    have hs : (0 : ℝ) ≤ old.length := Nat.cast_nonneg _
    have hsm : (0 : ℝ) < ((old.length + b.length : ℕ) : ℝ) := by push_cast; linarith
    obtain ⟨p1, e1, v1, n1, f1⟩ := C.mini_step ⟨prior, p⟩ ⟨hp, hv⟩ b hb.1 hb.2 ds ((b.length : ℝ) / ((old.length + b.length : ℕ) : ℝ))
      (div_pos hm hsm) (by rw [div_le_one hsm]; push_cast; linarith)
    have hall : ∀ x ∈ old ++ b, XV x := fun x hx => (List.mem_append.1 hx).elim (hold x) (hb.2 x)
    have hsc : ∀ k : ℕ, miniScale k ds = (ds : ℝ) / k := fun k => by
      unfold miniScale
      rw [if_neg (not_le.2 hds)]
    have hn1 : C.N p1 = C.goal prior (old ++ b) (miniScale (old ++ b).length ds) := by
      refine ext_getD (by rw [C.len_N _ v1, C.len_goal _ hp _ hall]) fun i _ => ?_
      rw [n1, C.mini_coord ⟨prior, p⟩ ⟨hp, hv⟩ b hb.2, C.goal_coord _ hp _ hb.2, C.goal_coord _ hp _ hall]
      rcases List.eq_nil_or_concat old with h | ⟨_, _, h⟩
      · subst h
        simp only [List.length_nil, Nat.zero_add, List.nil_append]
        rw [div_self hm.ne']
        ring
      · have hne : old ≠ [] := by rw [h]; simp
        have hs' : (0 : ℝ) < old.length := by exact_mod_cast List.length_pos_of_ne_nil hne
        show (C.N p).getD i 0 + _ * (_ - (C.N p).getD i 0) = _
        rw [hn hne, C.goal_coord _ hp _ hold, hsc, hsc, hsc, List.map_append, List.sum_append, List.length_append]
        push_cast
        have : (old.length : ℝ) + b.length ≠ 0 := by linarith
        field_simp
        ring
    obtain ⟨p2, e2, v2, n2, f2⟩ := ih (fun b' h => hbs b' (List.mem_cons_of_mem _ h)) (old ++ b) hall p1 v1 (fun _ => hn1)
    refine ⟨p2, ?_, v2, fun h => ?_, fun _ => ?_⟩
    · show (miniStep fam ⟨prior, p⟩ b ds _ >>= _) = _
      rw [e1]
      rw [List.length_append] at e2
      exact e2
    · have := n2 (by simp [hb.1])
      simpa using this
    · by_cases hbs' : bs = []
      · subst hbs'
        have : p1 = p2 := by
          have e3 : (Except.ok ⟨prior, p1⟩ : Except Err (CParam P)) = .ok ⟨prior, p2⟩ := e2
          injection e3 with e3
          injection e3
        rw [← this]
        exact f1
      · exact f2 hbs'

end

end Verif.VB
