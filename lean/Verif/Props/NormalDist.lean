import Verif.Lemmas.WishartKL
import Verif.Lemmas.ExceptList
import Verif.Spec.NormalDist
import Verif.Props.NormalWishart

/-!
# C95, C96, C97: the normal distribution objects
-/

namespace Verif.Props

open Verif Verif.Dists Verif.DistSpec Real Matrix ProbabilityTheory MeasureTheory

/-! ## C95: log densities -/

theorem diagLogDensity_ofFn {D : ℕ} (m s x : Fin D → ℝ) (hs : ∀ i, 0 < s i) :
    diagLogDensity (List.ofFn m) (List.ofFn s) (List.ofFn x) =
      ∑ i, (-(1/2) * log (2 * π) - (1/2) * log (s i) - (x i - m i) ^ 2 / (2 * s i)) := by
  unfold diagLogDensity
  rw [List.zip, zipWith_ofFn, zipWith_ofFn, List.sum_ofFn]
  refine Finset.sum_congr rfl fun i _ => ?_
  have h := hs i
  simp only [gaussianPDFReal, Real.coe_toNNReal _ h.le]
  rw [log_mul (by positivity) (exp_pos _).ne', log_inv, log_exp, log_sqrt (by positivity),
    log_mul (by positivity) h.ne']
  ring

theorem ndValid_ofFn {D : ℕ} (p : ND ℝ) (hp : NDValid D p) :
    ∃ m s : Fin D → ℝ, p = ⟨List.ofFn m, List.ofFn s⟩ ∧ ∀ i, 0 < s i := by
  obtain ⟨h1, h2, h3⟩ := hp
  obtain ⟨m, hm⟩ := exists_ofFn p.mean h1
  obtain ⟨s, hs⟩ := exists_ofFn p.diagCov h2
  refine ⟨m, s, ?_, ?_⟩
  · cases p; simp_all
  · intro i
    apply h3
    rw [hs]
    exact List.mem_ofFn.2 ⟨i, rfl⟩

theorem nd_vdot {D : ℕ} (m s x : Fin D → ℝ) :
    vdot (ndNatural ⟨List.ofFn m, List.ofFn s⟩) (ndStats (List.ofFn x)) =
      ∑ i, (1 / s i * m i * x i - (1/2) * (1 / s i) * x i ^ 2) := by
  unfold ndNatural ndStats
  rw [zipWith_ofFn, List.map_ofFn, List.map_ofFn, vdot_append _ _ _ _ (by simp), vdot_ofFn,
    vdot_ofFn, ← Finset.sum_add_distrib]
  refine Finset.sum_congr rfl fun i _ => ?_
  simp only [Function.comp]
  ring

/-- The inner product minus the log-normaliser of the forward pass is the log density. -/
theorem nd_forward_value {D : ℕ} (p : ND ℝ) (hp : NDValid D p) (x : List ℝ) (hx : x.length = D) :
    vdot (ndNatural p) (ndStats x) - ndLnorm p + normBase D = diagLogDensity p.mean p.diagCov x := by
  obtain ⟨m, s, rfl, hs⟩ := ndValid_ofFn p hp
  obtain ⟨x, rfl⟩ := exists_ofFn x hx
  rw [nd_vdot, diagLogDensity_ofFn m s x hs]
  simp only [ndLnorm, normBase, List.map_ofFn, zipWith_ofFn, List.sum_ofFn]
  have hD : -(1/2) * ((D : ℝ) * log (2 * π)) = ∑ _i : Fin D, -(1/2) * log (2 * π) := by
    simp; ring
  rw [hD, ← Finset.sum_add_distrib, Finset.mul_sum, ← Finset.sum_sub_distrib,
    ← Finset.sum_add_distrib]
  refine Finset.sum_congr rfl fun i _ => ?_
  have h := hs i
  simp only [Function.comp]
  field_simp
  ring

/-- C95, diagonal normal: `log_norm` is the logarithm of the normalising constant: natural
parameters times statistics, minus `log_norm`, is the log density. -/
theorem C95_diag_log_norm {D : ℕ} (p : ND ℝ) (hp : NDValid D p) (x : List ℝ) (hx : x.length = D) :
    vdot (ndNatural p) (ndStats x) - ndLogNorm p = diagLogDensity p.mean p.diagCov x := by
  rw [← nd_forward_value p hp x hx]
  have : ndLogNorm p = ndLnorm p - normBase D := by
    unfold ndLogNorm ndLnorm normBase
    rw [hp.1]; ring
  rw [this]; ring

/-- C95, diagonal normal, one distribution: calling it on the statistics of any number of data
points gives their log densities. -/
theorem C95_diag_single {D : ℕ} (p : ND ℝ) (hp : NDValid D p) (xs : List (List ℝ))
    (hx : ∀ x ∈ xs, x.length = D) :
    ndForwardSingle p (xs.map ndStats) = .ok (xs.map (diagLogDensity p.mean p.diagCov)) := by
  have hrow : bcast (fun v l => v - l + normBase D)
      ((xs.map ndStats).map fun s => vdot (ndNatural p) s) [ndLnorm p] =
      .ok (xs.map (diagLogDensity p.mean p.diagCov)) := by
    have hmap : ((xs.map ndStats).map fun s => vdot (ndNatural p) s).map
        (fun v => v - ndLnorm p + normBase D) = xs.map (diagLogDensity p.mean p.diagCov) := by
      rw [List.map_map, List.map_map]
      refine List.map_congr_left fun x hxm => ?_
      exact nd_forward_value p hp x (hx x hxm)
    rw [← hmap]
    generalize ((xs.map ndStats).map fun s => vdot (ndNatural p) s) = l
    unfold bcast
    split_ifs with h
    · obtain ⟨a, rfl⟩ := List.length_eq_one_iff.1 h
      rfl
    · match l, h with
      | [], _ => rfl
      | a :: b :: t, _ => rfl
  unfold ndForwardSingle ndForward
  rw [hp.1]
  simp only [List.map_cons, List.map_nil, List.mapM_cons, List.mapM_nil]
  rw [hrow]
  simp [bind, Except.bind, pure, Except.pure]

/-- C95, diagonal normals, `pdfwise=True`: the `i`-th value is the log density of the `i`-th point
under the `i`-th distribution. -/
theorem C95_diag_pdfwise {D : ℕ} (ps : List (ND ℝ)) (hp : ∀ p ∈ ps, NDValid D p)
    (xs : List (List ℝ)) (hx : ∀ x ∈ xs, x.length = D) (hl : ps.length = xs.length) :
    ndForwardPdfwise D ps (xs.map ndStats) =
      .ok (List.zipWith (fun p x => diagLogDensity p.mean p.diagCov x) ps xs) := by
  unfold ndForwardPdfwise bcast
  rw [if_pos (by simpa using hl)]
  congr 1
  apply List.ext_getElem
  · simp
  · intro i h1 h2
    simp only [List.getElem_zipWith, List.getElem_map]
    exact nd_forward_value _ (hp _ (List.getElem_mem _)) _ (hx _ (List.getElem_mem _))

/-- C95 is violated for a batch of diagonal normals called without `pdfwise`: when the number of data
points is neither one nor the number of distributions, the call raises. -/
theorem C95_diag_batch_raises (D : ℕ) (ps : List (ND ℝ)) (xs : List (List ℝ)) (hp : 2 ≤ ps.length)
    (hne : xs.length ≠ ps.length) (h1 : xs.length ≠ 1) :
    ndForward D ps (xs.map ndStats) = .error .runtimeError := by
  unfold ndForward
  match ps, hp with
  | p :: q :: t, _ =>
    have : bcast (fun v l => v - l + normBase D)
        ((xs.map ndStats).map fun s => vdot (ndNatural p) s) ((p :: q :: t).map ndLnorm) =
        .error .runtimeError := by
      have hlen : ((xs.map ndStats).map fun s => vdot (ndNatural p) s).length = xs.length := by simp
      revert hlen
      generalize ((xs.map ndStats).map fun s => vdot (ndNatural p) s) = l
      intro hlen
      unfold bcast
      rw [if_neg (by rw [hlen]; simpa using hne)]
      match l, hlen with
      | [], _ => rfl
      | [a], h => exact absurd h.symm h1
      | a :: b :: t', _ => rfl
    rw [List.map_cons (f := fun p => (xs.map ndStats).map fun s => vdot (ndNatural p) s),
      List.mapM_cons, this]
    rfl

/-- C95 is violated for a batch of diagonal normals called without `pdfwise` on as many points as
there are distributions: the value for distribution `i` and point `j` is the log density, off by the
difference of the log-normalisers of the distributions `i` and `j`. -/
theorem C95_diag_batch_wrong {D : ℕ} (ps : List (ND ℝ)) (hp : ∀ p ∈ ps, NDValid D p)
    (xs : List (List ℝ)) (hx : ∀ x ∈ xs, x.length = D) (hl : xs.length = ps.length) :
    ∃ rows, ndForward D ps (xs.map ndStats) = .ok rows ∧
      ∀ (i j : ℕ) (p q : ND ℝ) (x row : List ℝ) (v : ℝ), ps[i]? = some p → ps[j]? = some q → xs[j]? = some x → rows[i]? = some row →
        row[j]? = some v →
        v = diagLogDensity p.mean p.diagCov x + (ndLnorm p - ndLnorm q) := by
  have hrow : ∀ p : ND ℝ, bcast (fun v l => v - l + normBase D)
      ((xs.map ndStats).map fun s => vdot (ndNatural p) s) (ps.map ndLnorm) =
      .ok (List.zipWith (fun v l => v - l + normBase D)
        ((xs.map ndStats).map fun s => vdot (ndNatural p) s) (ps.map ndLnorm)) := by
    intro p
    unfold bcast
    rw [if_pos (by simp [hl])]
  refine ⟨ps.map fun p => List.zipWith (fun v l => v - l + normBase D)
        ((xs.map ndStats).map fun s => vdot (ndNatural p) s) (ps.map ndLnorm), ?_, ?_⟩
  · unfold ndForward
    have : ∀ l : List (ND ℝ), (l.map fun p => (xs.map ndStats).map fun s => vdot (ndNatural p) s).mapM
        (fun row => bcast (fun v l => v - l + normBase D) row (ps.map ndLnorm)) =
        .ok (l.map fun p => List.zipWith (fun v l => v - l + normBase D)
          ((xs.map ndStats).map fun s => vdot (ndNatural p) s) (ps.map ndLnorm)) := by
      intro l
      induction l with
      | nil => rfl
      | cons a t ih =>
        rw [List.map_cons, List.mapM_cons, hrow a, ih]
        rfl
    exact this ps
  · intro i j p q x row v h1 h2 h3 h4 h5
    rw [List.getElem?_map, h1] at h4
    obtain rfl := Option.some.inj h4
    rw [List.getElem?_zipWith, List.getElem?_map, List.getElem?_map, List.getElem?_map, h2, h3] at h5
    obtain rfl := Option.some.inj h5
    rw [← nd_forward_value p (hp p (List.mem_of_getElem? h1)) x (hx x (List.mem_of_getElem? h3))]
    ring

/-- Two unit-mean-square normals with different variances: the value at the point `0` of the first
under the second's column is wrong. -/
theorem C95_diag_batch_negation :
    ∃ (ps : List (ND ℝ)) (xs : List (List ℝ)) (rows : List (List ℝ)),
      (∀ p ∈ ps, NDValid 1 p) ∧ (∀ x ∈ xs, x.length = 1) ∧
      ndForward 1 ps (xs.map ndStats) = .ok rows ∧
      ∃ row v, rows[0]? = some row ∧ row[1]? = some v ∧ v ≠ diagLogDensity [0] [1] [0] := by
  obtain ⟨rows, h1, h2⟩ := C95_diag_batch_wrong (D := 1) [⟨[0], [1]⟩, ⟨[0], [exp 2]⟩]
    (by simp [NDValid, exp_pos]) [[0], [0]] (by simp) rfl
  refine ⟨_, _, rows, by simp [NDValid, exp_pos], by simp, h1, ?_⟩
  unfold ndForward at h1
  have hf := (mapM_ok_iff _ _ _).1 h1
  simp only [List.map_cons, List.map_nil] at hf
  obtain ⟨row, rest, e1, e2, rfl⟩ := List.forall₂_cons_left_iff.1 hf
  have e3 : row = [vdot (ndNatural ⟨[0], [1]⟩) (ndStats [0]) - ndLnorm ⟨[0], [1]⟩ + normBase 1,
      vdot (ndNatural ⟨[0], [1]⟩) (ndStats [0]) - ndLnorm ⟨[0], [exp 2]⟩ + normBase 1] :=
    (Except.ok.inj e1).symm
  subst e3
  refine ⟨_, _, rfl, rfl, ?_⟩
  have := nd_forward_value (D := 1) ⟨[0], [1]⟩ (by simp [NDValid]) [0] rfl
  rw [← this]
  simp [ndLnorm]

/-! ### Full covariance -/

theorem fn_det {D : ℕ} {p : FN D} (hp : FNValid p) : p.cov.det ≠ 0 := hp.det_pos.ne'

theorem fnNatural_ok {D : ℕ} (p : FN D) (hp : FNValid p) :
    fnNatural p = .ok (List.ofFn (p.cov⁻¹ *ᵥ p.mean) ++ flat p.cov⁻¹) := by
  unfold fnNatural tinverse
  rw [if_neg (fn_det hp)]

theorem fnCholesky_ok {D : ℕ} (p : FN D) (hp : FNValid p) :
    ∃ L, tcholesky p.cov = .ok L ∧ L * Lᵀ = p.cov ∧ 2 * ∑ i, log (L i i) = log p.cov.det := by
  have hex := exists_cholesky _ hp
  refine ⟨hex.choose, ?_, cholesky_mul _ _ (posDef_isSymm hp) hex.choose_spec,
    (cholesky_det _ _ (posDef_isSymm hp) hex.choose_spec).symm⟩
  unfold tcholesky
  rw [dif_pos hex]

theorem fnLogNorm_ok {D : ℕ} (p : FN D) (hp : FNValid p) :
    fnLogNorm p = .ok ((1/2) * (log p.cov.det + p.mean ⬝ᵥ p.cov⁻¹ *ᵥ p.mean) +
      (1/2) * (D : ℝ) * log (2 * π)) := by
  obtain ⟨L, h1, -, h3⟩ := fnCholesky_ok p hp
  unfold fnLogNorm tinverse
  rw [h1]
  dsimp only
  rw [if_neg (fn_det hp)]
  dsimp only
  rw [h3]
  congr 4
  exact dotProduct_comm _ _

theorem fn_vdot {D : ℕ} (P : Matrix (Fin D) (Fin D) ℝ) (a x : Fin D → ℝ) :
    vdot (List.ofFn a ++ flat P) (fnStats x) = a ⬝ᵥ x - (1/2) * (x ⬝ᵥ P *ᵥ x) := by
  unfold fnStats
  rw [vdot_append _ _ _ _ (by simp), vdot_ofFn, vdot_flat, ← frob_outer P x, Finset.mul_sum]
  have : ∑ i, ∑ j, P i j * (Matrix.of fun i j => -(1/2 : ℝ) * outer x i j) i j =
      -∑ i, (1/2) * ∑ j, P i j * outer x i j := by
    rw [← Finset.sum_neg_distrib]
    refine Finset.sum_congr rfl fun i _ => ?_
    rw [Finset.mul_sum, ← Finset.sum_neg_distrib]
    refine Finset.sum_congr rfl fun j _ => ?_
    simp only [of_apply]; ring
  rw [this]
  rfl

theorem fn_value {D : ℕ} (p : FN D) (hp : FNValid p) (x : Fin D → ℝ) :
    vdot (List.ofFn (p.cov⁻¹ *ᵥ p.mean) ++ flat p.cov⁻¹) (fnStats x) -
      ((1/2) * (log p.cov.det + p.mean ⬝ᵥ p.cov⁻¹ *ᵥ p.mean) + (1/2) * (D : ℝ) * log (2 * π)) =
      fullNormalLogDensity p.mean p.cov⁻¹ x := by
  have hs : (p.cov⁻¹).IsSymm := posDef_isSymm (PosDef.inv hp)
  rw [fn_vdot]
  unfold fullNormalLogDensity
  have h1 : log (p.cov⁻¹).det = -log p.cov.det := by
    rw [det_nonsing_inv, Ring.inverse_eq_inv', log_inv]
  rw [h1, mulVec_sub, dotProduct_sub, sub_dotProduct, sub_dotProduct,
    quad_symm _ hs p.mean x, dotProduct_comm _ x]
  ring

/-- C95, full-covariance normal: `log_norm` is the logarithm of the normalising constant. -/
theorem C95_full_log_norm {D : ℕ} (p : FN D) (hp : FNValid p) (x : Fin D → ℝ) :
    ∃ n l, fnNatural p = .ok n ∧ fnLogNorm p = .ok l ∧
      vdot n (fnStats x) - l = fullNormalLogDensity p.mean p.cov⁻¹ x :=
  ⟨_, _, fnNatural_ok p hp, fnLogNorm_ok p hp, fn_value p hp x⟩

/-- C95, a batch of full-covariance normals called on any number of points: the value for
distribution `i` and point `j` is the log density of the point under the distribution. -/
theorem C95_full_batch {D : ℕ} (ps : List (FN D)) (hp : ∀ p ∈ ps, FNValid p)
    (xs : List (Fin D → ℝ)) :
    fnForward ps (xs.map fnStats) =
      .ok (ps.map fun p => xs.map fun x => fullNormalLogDensity p.mean p.cov⁻¹ x) := by
  have hrow : ∀ p ∈ ps, fnForwardRow (xs.map fnStats) p =
      .ok (xs.map fun x => fullNormalLogDensity p.mean p.cov⁻¹ x) := by
    intro p hpm
    obtain ⟨L, h1, -, h3⟩ := fnCholesky_ok p (hp p hpm)
    unfold fnForwardRow
    rw [fnNatural_ok p (hp p hpm), h1]
    dsimp only
    rw [h3]
    simp only [take_getD_ofFn, List.map_map]
    congr 1
    refine List.map_congr_left fun x _ => ?_
    rw [← fn_value p (hp p hpm) x]
    simp only [Function.comp, normBase]
    have : ∑ i, (p.cov⁻¹ *ᵥ p.mean) i * p.mean i = p.mean ⬝ᵥ p.cov⁻¹ *ᵥ p.mean :=
      dotProduct_comm _ _
    rw [this]
    ring
  unfold fnForward
  clear hp
  induction ps with
  | nil => rfl
  | cons p t ih =>
    rw [List.mapM_cons, hrow p (by simp), ih (fun q hq => hrow q (by simp [hq]))]
    rfl

/-- C95 is violated for a single full-covariance normal: calling it always raises. -/
theorem C95_full_single_raises {D : ℕ} (p : FN D) (hp : FNValid p) (stats : List (List ℝ)) :
    fnForwardSingle p stats = .error .indexError := by
  obtain ⟨L, h1, -, -⟩ := fnCholesky_ok p hp
  unfold fnForwardSingle
  rw [fnNatural_ok p hp, h1]

/-- C95, Gamma: natural parameters times `(x, ln x)`, minus `log_norm`, is the log density. -/
theorem C95_gamma_log_norm {D : ℕ} (a b x : Fin D → ℝ) (ha : ∀ i, 0 < a i) (hb : ∀ i, 0 < b i)
    (hx : ∀ i, 0 < x i) :
    vdot (gamNatural ⟨List.ofFn a, List.ofFn b⟩) (List.ofFn x ++ List.ofFn fun i => log (x i)) -
      gamLogNorm ⟨List.ofFn a, List.ofFn b⟩ = log (gammaDensity a b x) := by
  rw [log_gammaDensity a b x ha hb hx]
  unfold gamNatural gamLogNorm
  rw [List.map_ofFn, List.map_ofFn, vdot_append _ _ _ _ (by simp), vdot_ofFn, vdot_ofFn,
    zipWith_ofFn, List.sum_ofFn, ← Finset.sum_add_distrib, ← Finset.sum_sub_distrib]
  refine Finset.sum_congr rfl fun i _ => ?_
  simp only [Function.comp]
  ring

example : ndForwardSingle ⟨[1, 2], [3, 4]⟩ ([[0, 0], [5, 6]].map ndStats) =
    .ok [diagLogDensity [1, 2] [3, 4] [0, 0], diagLogDensity [1, 2] [3, 4] [5, 6]] :=
  C95_diag_single (D := 2) ⟨[1, 2], [3, 4]⟩ (by simp [NDValid]) [[0, 0], [5, 6]] (by simp)

example : vdot (ndNatural ⟨[1], [3]⟩) (ndStats [2]) - ndLogNorm ⟨[1], [3]⟩ =
    diagLogDensity [1] [3] [2] :=
  C95_diag_log_norm (D := 1) ⟨[1], [3]⟩ (by simp [NDValid]) [2] rfl

example : ndForwardPdfwise 1 [⟨[1], [3]⟩, ⟨[0], [1]⟩] ([[2], [7]].map ndStats) =
    .ok [diagLogDensity [1] [3] [2], diagLogDensity [0] [1] [7]] :=
  C95_diag_pdfwise (D := 1) [⟨[1], [3]⟩, ⟨[0], [1]⟩] (by simp [NDValid]) [[2], [7]] (by simp) rfl

example : ndForward 1 [⟨[1], [3]⟩, ⟨[0], [1]⟩] ([[2], [7], [8]].map ndStats) = .error .runtimeError :=
  C95_diag_batch_raises 1 _ _ (by simp) (by simp) (by simp)

example : FNValid (⟨![1, 2], 1⟩ : FN 2) := PosDef.one

example : fnForward [(⟨![1, 2], 1⟩ : FN 2)] ([![0, 0], ![1, 5]].map fnStats) =
    .ok [[fullNormalLogDensity ![1, 2] 1⁻¹ ![0, 0], fullNormalLogDensity ![1, 2] 1⁻¹ ![1, 5]]] :=
  C95_full_batch [(⟨![1, 2], 1⟩ : FN 2)] (by simp [FNValid, PosDef.one]) [![0, 0], ![1, 5]]

example : vdot (gamNatural ⟨[2], [3]⟩) [5, log 5] - gamLogNorm ⟨[2], [3]⟩ =
    log (gammaDensity (fun _ : Fin 1 => 2) (fun _ => 3) (fun _ => 5)) := by
  have := C95_gamma_log_norm (D := 1) (fun _ => 2) (fun _ => 3) (fun _ => 5) (by simp) (by simp)
    (by simp)
  simpa using this

/-! ## C96: KL divergences and natural parameters -/

theorem fnKl_eq {D : ℕ} (p q : FN D) (hp : FNValid p) (hq : FNValid q) :
    fnKl p q = .ok ((1/2) * ((p.cov * q.cov⁻¹).trace - D - (log p.cov.det - log q.cov.det)) +
      (1/2) * ((p.mean - q.mean) ⬝ᵥ q.cov⁻¹ *ᵥ (p.mean - q.mean))) := by
  have hs : (q.cov⁻¹).IsSymm := posDef_isSymm (PosDef.inv hq)
  have hs' : (p.cov⁻¹).IsSymm := posDef_isSymm (PosDef.inv hp)
  have hps : p.cov.IsSymm := posDef_isSymm hp
  unfold fnKl
  rw [if_neg (by simp), fnNatural_ok p hp, fnNatural_ok q hq, fnLogNorm_ok p hp, fnLogNorm_ok q hq]
  dsimp only
  congr 1
  rw [vsub_append _ _ _ _ (by simp), vsub_ofFn, flat_vsub]
  unfold fnExpStats
  rw [vdot_append _ _ _ _ (by simp), vdot_ofFn, vdot_flat]
  have e1 : ∑ i, ∑ j, (Matrix.of fun i j => -(1/2 : ℝ) * (p.cov i j + outer p.mean i j)) i j *
      (q.cov⁻¹ - p.cov⁻¹) i j =
      -(1/2) * ((p.cov * (q.cov⁻¹ - p.cov⁻¹)).trace +
        p.mean ⬝ᵥ (q.cov⁻¹ - p.cov⁻¹) *ᵥ p.mean) := by
    rw [← frob_eq_trace _ _ hps, ← frob_outer, ← Finset.sum_add_distrib, Finset.mul_sum]
    refine Finset.sum_congr rfl fun i _ => ?_
    rw [← Finset.sum_add_distrib, Finset.mul_sum]
    refine Finset.sum_congr rfl fun j _ => ?_
    simp only [of_apply]; ring
  have e2 : ∑ i, p.mean i * ((q.cov⁻¹ *ᵥ q.mean) i - (p.cov⁻¹ *ᵥ p.mean) i) =
      p.mean ⬝ᵥ q.cov⁻¹ *ᵥ q.mean - p.mean ⬝ᵥ p.cov⁻¹ *ᵥ p.mean := by
    simp only [dotProduct, mul_sub, Finset.sum_sub_distrib]
  rw [e1, e2, Matrix.mul_sub, trace_sub, mul_nonsing_inv _ (isUnit_iff_ne_zero.2 (fn_det hp)),
    trace_one, Fintype.card_fin, sub_mulVec, dotProduct_sub, mulVec_sub, dotProduct_sub,
    sub_dotProduct, sub_dotProduct, quad_symm _ hs q.mean p.mean]
  ring

theorem fn_conj {D : ℕ} (p q : FN D) (hp : FNValid p) (hq : FNValid q) :
    ∃ M : Matrix (Fin D) (Fin D) ℝ, M.PosDef ∧ M.trace = (p.cov * q.cov⁻¹).trace ∧
      log M.det = log p.cov.det - log q.cov.det ∧ (M = 1 → p.cov = q.cov) :=
  conj_posDef ⟨0, 1, p.cov, D⟩ ⟨0, 1, q.cov, D⟩ ⟨one_pos, hp, by linarith⟩ ⟨one_pos, hq, by linarith⟩

/-- C96: the divergence between two full-covariance normals of the same dimension is computed, is
not negative, and is zero exactly when the two distributions are equal. -/
theorem C96_full_kl {D : ℕ} (p q : FN D) (hp : FNValid p) (hq : FNValid q) :
    ∃ v, fnKl p q = .ok v ∧ 0 ≤ v ∧ (v = 0 ↔ p = q) := by
  refine ⟨_, fnKl_eq p q hp hq, ?_⟩
  obtain ⟨M, h1, h2, h3, h4⟩ := fn_conj p q hp hq
  have ht := trace_logdet M h1 one_pos one_pos
  rw [← h2, ← h3]
  simp only [div_self one_ne_zero, log_one, mul_zero, sub_zero, one_mul] at ht
  have hqd := nw_quad_nonneg (PosDef.inv hq) (p.mean - q.mean)
  refine ⟨by nlinarith, ?_, ?_⟩
  · intro h0
    have e1 : M.trace - log M.det = D := by linarith
    have e2 : (p.mean - q.mean) ⬝ᵥ q.cov⁻¹ *ᵥ (p.mean - q.mean) = 0 := by linarith
    have hc := h4 (trace_logdet_eq M h1 e1)
    have hm : p.mean - q.mean = 0 := by
      by_contra hne
      have h5 := (PosDef.inv hq).dotProduct_mulVec_pos hne
      rw [star_trivial] at h5
      exact absurd e2 h5.ne'
    exact FN.ext (sub_eq_zero.1 hm) hc
  · rintro rfl
    have h5 : M.trace = D := by
      rw [h2, mul_nonsing_inv _ (isUnit_iff_ne_zero.2 (fn_det hp)), trace_one, Fintype.card_fin]
    rw [h3, h5]
    simp

/-- C96: different dimensions are refused. -/
theorem C96_full_kl_dim {D D' : ℕ} (h : D ≠ D') (p : FN D) (q : FN D') :
    fnKl p q = .error .dimMismatch := by
  unfold fnKl; rw [if_pos h]

theorem fnDim_eq (D : ℕ) : fnDim (D + D * D) = D := by
  have := nwDim_eq D
  unfold nwDim at this
  unfold fnDim
  dsimp only at this
  split_ifs at this with h
  have h2 := Except.ok.inj this
  have e : (1 : ℝ) + 4 * ((D + D * D : ℕ) : ℝ) = 1 + 4 * (((D + D * D + 2 : ℕ) : ℝ) - 2) := by
    push_cast
    ring
  rw [e, h2]

/-- C96 is violated: natural parameters of full-covariance normals in two dimensions or more cannot
be converted back, for one distribution or for any batch. -/
theorem C96_full_roundtrip_negation {D : ℕ} (hD : 2 ≤ D) (ps : List (FN D)) (rows : List (List ℝ))
    (h : ps.mapM fnNatural = .ok rows) : fnFromNatural rows = .error .runtimeError := by
  match ps, rows, h with
  | [], rows, h =>
    obtain rfl := Except.ok.inj h
    rfl
  | p :: t, rows, h =>
    have hf := (mapM_ok_iff _ _ _).1 h
    obtain ⟨r, rest, e1, -, rfl⟩ := List.forall₂_cons_left_iff.1 hf
    have hl : r.length = D + D * D := by
      unfold fnNatural at e1
      split at e1
      · cases e1
      · obtain rfl := Except.ok.inj e1
        simp [length_flat]
    unfold fnFromNatural
    simp only [hl, fnDim_eq]
    split_ifs with h1 h2
    · rfl
    · rfl
    · exact absurd (not_not.1 h2) (by omega)

/-- C96, one dimension: the conversion gives the mean and the variance back. -/
theorem C96_full_roundtrip_partial (m s : ℝ) (hs : 0 < s) :
    ∃ n, fnNatural (⟨![m], !![s]⟩ : FN 1) = .ok n ∧ fnFromNatural [n] = .ok [(m, s)] := by
  have hinv : (!![s] : Matrix (Fin 1) (Fin 1) ℝ)⁻¹ = !![1 / s] := by
    apply inv_eq_left_inv
    ext i j
    fin_cases i; fin_cases j
    simp [mul_apply, hs.ne']
  refine ⟨[1 / s * m, 1 / s], ?_, ?_⟩
  · unfold fnNatural tinverse
    rw [if_neg (by simp [hs.ne'])]
    simp only [hinv]
    simp [flat, mul_comm]
  · unfold fnFromNatural
    have : fnDim [1 / s * m, 1 / s].length = 1 := fnDim_eq 1
    simp only [this]
    have hne : (1 / s : ℝ) ≠ 0 := by positivity
    simp only [List.length_cons, List.length_nil, one_pow, ne_eq, not_true_eq_false, if_false,
      List.mapM_cons, List.mapM_nil, List.getD_cons_zero, List.getD_cons_succ]
    simp [bind, Except.bind, pure, Except.pure, hs.ne']

/-- C96 is violated for batches of diagonal normals: the divergence between two batches of the same
size raises, except for batches of one one-dimensional normal. -/
theorem C96_diag_batch_raises {D : ℕ} (ps qs : List (ND ℝ)) (hp : ∀ p ∈ ps, NDValid D p)
    (hq : ∀ q ∈ qs, NDValid D q) (hl : ps.length = qs.length) (h0 : ps ≠ []) (hD : 1 ≤ D)
    (h1 : ¬ (ps.length = 1 ∧ D = 1)) :
    ndKlBatch D D ps qs = .error .runtimeError := by
  have hbc : ∀ {α β γ : Type} (f : α → β → γ) (xs : List α) (ys : List β), xs.length ≠ ys.length →
      xs.length ≠ 1 → ys.length ≠ 1 → bcast f xs ys = .error .runtimeError := by
    intro α β γ f xs ys a b c
    unfold bcast
    rw [if_neg a]
    match xs, ys, a, b, c with
    | [], [], a, _, _ => exact absurd rfl a
    | [], [y], _, _, c => exact absurd rfl c
    | [], _ :: _ :: _, _, _, _ => rfl
    | [x], _, _, b, _ => exact absurd rfl b
    | _ :: _ :: _, [], _, _, _ => rfl
    | _ :: _ :: _, [y], _, _, c => exact absurd rfl c
    | _ :: _ :: _, _ :: _ :: _, _, _, _ => rfl
  have hpos : 0 < ps.length := List.length_pos_iff.2 h0
  have hd : bcast (fun q p => vsub q p) (qs.map ndNatural) (ps.map ndNatural) =
      .ok (List.zipWith (fun q p => vsub q p) (qs.map ndNatural) (ps.map ndNatural)) := by
    unfold bcast
    rw [if_pos (by simp [hl])]
  unfold ndKlBatch
  rw [if_neg (by simp), hd]
  dsimp only
  by_cases h2 : ps.length = 1
  · obtain ⟨p, rfl⟩ := List.length_eq_one_iff.1 h2
    obtain ⟨q, rfl⟩ := List.length_eq_one_iff.1 (hl ▸ h2)
    obtain ⟨a1, a2, -⟩ := hp p (by simp)
    obtain ⟨b1, b2, -⟩ := hq q (by simp)
    have hD2 : D ≠ 1 := fun h => h1 ⟨h2, h⟩
    have e : bcast (fun x1 x2 : ℝ => x1 * x2) p.mean (vsub (ndNatural q) (ndNatural p)) =
        .error .runtimeError := by
      apply hbc
      · simp [vsub, ndNatural, a1, a2, b1, b2]; omega
      · rw [a1]; exact hD2
      · simp [vsub, ndNatural, a1, a2, b1, b2]; omega
    simp only [ndExpStatsBatch, List.map_cons, List.map_nil, List.zipWith_cons_cons,
      List.zipWith_nil_right]
    have e2 : bcast Prod.mk ([p.mean] ++ [List.zipWith (fun s m => -(1/2) * (s + m ^ 2)) p.diagCov
        p.mean]) [vsub (ndNatural q) (ndNatural p)] =
        .ok [(p.mean, vsub (ndNatural q) (ndNatural p)),
          (List.zipWith (fun s m => -(1/2) * (s + m ^ 2)) p.diagCov p.mean,
            vsub (ndNatural q) (ndNatural p))] := rfl
    rw [e2]
    dsimp only
    rw [List.mapM_cons, e]
    rfl
  · rw [hbc Prod.mk]
    · simp only [ndExpStatsBatch, List.length_append, List.length_map, List.length_zipWith]; omega
    · simp only [ndExpStatsBatch, List.length_append, List.length_map]; omega
    · simp only [List.length_map, List.length_zipWith]; omega

/-- In the remaining case the result is not one divergence but two numbers. -/
theorem C96_diag_batch_one (p q : ND ℝ) (hp : NDValid 1 p) (hq : NDValid 1 q) :
    ∃ v w, ndKlBatch 1 1 [p] [q] = .ok [v, w] := by
  obtain ⟨m, s, rfl, -⟩ := ndValid_ofFn p hp
  obtain ⟨m', s', rfl, -⟩ := ndValid_ofFn q hq
  simp [ndKlBatch, ndExpStatsBatch, ndNatural, bcast, vsub, bind, Except.bind, pure, Except.pure]

example : ∃ v, fnKl (⟨![1, 2], 1⟩ : FN 2) ⟨![0, 2], 1⟩ = .ok v ∧ 0 ≤ v ∧
    (v = 0 ↔ (⟨![1, 2], 1⟩ : FN 2) = ⟨![0, 2], 1⟩) :=
  C96_full_kl _ _ (PosDef.one) (PosDef.one)

example : ∃ rows, [(⟨![1, 2], 1⟩ : FN 2)].mapM fnNatural = .ok rows ∧
    fnFromNatural rows = .error .runtimeError := by
  have h : [(⟨![1, 2], 1⟩ : FN 2)].mapM fnNatural =
      .ok [List.ofFn ((1 : Matrix (Fin 2) (Fin 2) ℝ)⁻¹ *ᵥ ![1, 2]) ++
        flat (1 : Matrix (Fin 2) (Fin 2) ℝ)⁻¹] := by
    rw [List.mapM_cons, fnNatural_ok (⟨![1, 2], 1⟩ : FN 2) PosDef.one]
    rfl
  exact ⟨_, h, C96_full_roundtrip_negation le_rfl _ _ h⟩

example : ndKlBatch 1 1 [⟨[0], [1]⟩, ⟨[1], [2]⟩] [⟨[0], [1]⟩, ⟨[1], [2]⟩] = .error .runtimeError :=
  C96_diag_batch_raises (D := 1) _ _ (by simp [NDValid]) (by simp [NDValid]) rfl (by simp) le_rfl
    (by simp)

/-! ## C97: sampling -/

/-- C97, full covariance: with standard noise (mean zero, identity covariance, on any probability
space) the drawn vectors have exactly the mean and the covariance of the distribution. -/
theorem C97_full_sample {Ω : Type*} [MeasurableSpace Ω] (μ : Measure Ω) [IsProbabilityMeasure μ]
    {D : ℕ} (p : FN D) (hp : FNValid p) (e : Ω → Fin D → ℝ) (he : Standard μ e) :
    ∃ z : Ω → Fin D → ℝ, (∀ ω, fnSample p (e ω) = .ok (z ω)) ∧
      (∀ i, ∫ ω, z ω i ∂μ = p.mean i) ∧
      ∀ i j, ∫ ω, (z ω i - p.mean i) * (z ω j - p.mean j) ∂μ = p.cov i j := by
  obtain ⟨L, h1, h2, -⟩ := fnCholesky_ok p hp
  refine ⟨fun ω => p.mean + L *ᵥ e ω, fun ω => by unfold fnSample; rw [h1], ?_, ?_⟩
  · intro i
    simp only [Pi.add_apply, mulVec, dotProduct]
    rw [integral_add (integrable_const _)
      (integrable_finsetSum _ fun j _ => (he.int1 j).const_mul _),
      integral_finsetSum _ fun j _ => (he.int1 j).const_mul _]
    simp [integral_const_mul, he.mean]
  · intro i j
    have hexp : ∀ ω, ((p.mean + L *ᵥ e ω) i - p.mean i) * ((p.mean + L *ᵥ e ω) j - p.mean j) =
        ∑ k, ∑ l, L i k * L j l * (e ω k * e ω l) := by
      intro ω
      simp only [Pi.add_apply, add_sub_cancel_left, mulVec, dotProduct, Finset.sum_mul_sum]
      refine Finset.sum_congr rfl fun k _ => Finset.sum_congr rfl fun l _ => ?_
      ring
    simp only [hexp]
    rw [integral_finsetSum _ fun k _ =>
      integrable_finsetSum _ fun l _ => (he.int2 k l).const_mul _]
    have : ∀ k, ∫ ω, ∑ l, L i k * L j l * (e ω k * e ω l) ∂μ = L i k * L j k := by
      intro k
      rw [integral_finsetSum _ fun l _ => (he.int2 k l).const_mul _]
      simp [integral_const_mul, he.cov]
    simp only [this]
    rw [← h2]
    simp [mul_apply]

/-- C97, diagonal covariance. -/
theorem C97_diag_sample {Ω : Type*} [MeasurableSpace Ω] (μ : Measure Ω) [IsProbabilityMeasure μ]
    {D : ℕ} (m s : Fin D → ℝ) (hs : ∀ i, 0 < s i) (e : Ω → Fin D → ℝ) (he : Standard μ e) :
    ∃ z : Ω → Fin D → ℝ,
      (∀ ω, ndSample ⟨List.ofFn m, List.ofFn s⟩ (List.ofFn (e ω)) = List.ofFn (z ω)) ∧
      (∀ i, ∫ ω, z ω i ∂μ = m i) ∧
      ∀ i j, ∫ ω, (z ω i - m i) * (z ω j - m j) ∂μ = if i = j then s i else 0 := by
  refine ⟨fun ω i => m i + √(s i) * e ω i, fun ω => by simp [ndSample, zipWith_ofFn], ?_, ?_⟩
  · intro i
    rw [integral_add (integrable_const _) ((he.int1 i).const_mul _)]
    simp [integral_const_mul, he.mean]
  · intro i j
    have hexp : ∀ ω, (m i + √(s i) * e ω i - m i) * (m j + √(s j) * e ω j - m j) =
        √(s i) * √(s j) * (e ω i * e ω j) := by
      intro ω; ring
    simp only [hexp]
    rw [integral_const_mul, he.cov]
    split_ifs with h
    · subst h
      rw [mul_one, Real.mul_self_sqrt (hs i).le]
    · rw [mul_zero]

/-- Standard noise exists: two opposite values, one dimension. -/
theorem standard_coin : Standard (((1/2 : ENNReal) • Measure.dirac true) +
    ((1/2 : ENNReal) • Measure.dirac false)) (fun (b : Bool) (_ : Fin 1) => if b then (1 : ℝ) else -1) := by
  have hi : ∀ f : Bool → ℝ, Integrable f (((1/2 : ENNReal) • Measure.dirac true) +
      ((1/2 : ENNReal) • Measure.dirac false)) := fun f =>
    ((Integrable.of_finite).smul_measure (by simp)).add_measure
      ((Integrable.of_finite).smul_measure (by simp))
  refine ⟨fun i => hi _, fun i j => hi _, ?_, ?_⟩
  · intro i
    rw [integral_add_measure ((Integrable.of_finite).smul_measure (by simp))
      ((Integrable.of_finite).smul_measure (by simp)), integral_smul_measure, integral_smul_measure,
      integral_dirac, integral_dirac]
    simp
  · intro i j
    rw [integral_add_measure ((Integrable.of_finite).smul_measure (by simp))
      ((Integrable.of_finite).smul_measure (by simp)), integral_smul_measure, integral_smul_measure,
      integral_dirac, integral_dirac]
    have : i = j := Subsingleton.elim _ _
    simp [this]
    norm_num

instance : IsProbabilityMeasure (((1/2 : ENNReal) • Measure.dirac true) +
    ((1/2 : ENNReal) • Measure.dirac false)) :=
  ⟨by simp [ENNReal.inv_two_add_inv_two]⟩

example : ∃ z : Bool → Fin 1 → ℝ,
    (∀ ω, fnSample (⟨![5], !![4]⟩ : FN 1) (fun _ => if ω then 1 else -1) = .ok (z ω)) ∧
    (∀ i, ∫ ω, z ω i ∂(((1/2 : ENNReal) • Measure.dirac true) +
      ((1/2 : ENNReal) • Measure.dirac false)) = (![5] : Fin 1 → ℝ) i) ∧
    ∀ i j, ∫ ω, (z ω i - (![5] : Fin 1 → ℝ) i) * (z ω j - (![5] : Fin 1 → ℝ) j)
      ∂(((1/2 : ENNReal) • Measure.dirac true) + ((1/2 : ENNReal) • Measure.dirac false)) =
      (!![4] : Matrix (Fin 1) (Fin 1) ℝ) i j := by
  refine C97_full_sample _ (⟨![5], !![4]⟩ : FN 1) ?_ _ standard_coin
  have : (!![4] : Matrix (Fin 1) (Fin 1) ℝ) = diagonal fun _ => 4 := by
    ext i j; fin_cases i; fin_cases j; rfl
  unfold FNValid
  rw [this]
  exact posDef_diagonal_iff.2 fun _ => by norm_num

end Verif.Props
