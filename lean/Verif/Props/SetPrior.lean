import Verif.Model.SetPrior
import Verif.Props.GSM
import Verif.Props.GSMExpect
import Verif.Props.KL

/-!
# C136: prior of a subspace model taken from another one
-/

namespace Verif.Props

open Real MeasureTheory ProbabilityTheory Verif Verif.GSM Verif.GSMSpec Verif.DistSpec Verif.SetPrior Verif.Dists

variable {I R Q N M : ℕ}

/-! ## Writing pdf-vectors -/

/-- The vector held by the parameters of a unit, one after the other. -/
def unitVector (u : List SParam) : List ℝ := (u.map SParam.pdfvec).flatten

/-- The number of statistics of a unit. -/
def unitSize (u : List SParam) : ℕ := (u.map SParam.numel).sum

/-- Every parameter holds as many numbers as it has statistics. -/
def UnitOk (u : List SParam) : Prop := ∀ p ∈ u, p.pdfvec.length = p.numel

theorem writeParams_ok (v : List ℝ) : ∀ (u : List SParam) (idx : ℕ), idx + unitSize u ≤ v.length →
    ∃ u', writeParams v u idx = .ok u' ∧ unitVector u' = (v.drop idx).take (unitSize u) ∧
      u'.map SParam.numel = u.map SParam.numel ∧ UnitOk u'
  | [], idx, _ => ⟨[], rfl, by simp [unitVector, unitSize], rfl, fun p h => by simp at h⟩
  | p :: ps, idx, h => by
    have hs : unitSize (p :: ps) = p.numel + unitSize ps := rfl
    rw [hs] at h
    have hl : ((v.drop idx).take p.numel).length = p.numel := by
      rw [List.length_take, List.length_drop]
      omega
    obtain ⟨u', h1, h2, h3, h4⟩ := writeParams_ok v ps (idx + p.numel) (by omega)
    refine ⟨⟨p.numel, (v.drop idx).take p.numel⟩ :: u', ?_, ?_, ?_, ?_⟩
    · unfold writeParams
      dsimp only
      rw [if_neg (not_not.2 hl), h1]
    · show (v.drop idx).take p.numel ++ unitVector u' = _
      rw [h2, hs, List.take_add, List.drop_drop]
    · show p.numel :: _ = p.numel :: _
      rw [h3]
    · intro q hq
      rcases List.mem_cons.1 hq with rfl | hq
      · exact hl
      · exact h4 q hq

theorem writeParams_short (v : List ℝ) : ∀ (u : List SParam) (idx : ℕ), idx ≤ v.length →
    v.length < idx + unitSize u → writeParams v u idx = .error .runtimeError
  | [], idx, h0, h => by
    have : unitSize [] = 0 := rfl
    omega
  | p :: ps, idx, h0, h => by
    have hs : unitSize (p :: ps) = p.numel + unitSize ps := rfl
    unfold writeParams
    dsimp only
    by_cases hl : ((v.drop idx).take p.numel).length = p.numel
    · rw [if_neg (not_not.2 hl)]
      rw [List.length_take, List.length_drop] at hl
      rw [writeParams_short v ps (idx + p.numel) (by omega) (by omega)]
    · rw [if_pos hl]

theorem writeModels_ok : ∀ (us : List (List SParam)) (vs : List (List ℝ)),
    (∀ u ∈ us, ∀ v ∈ vs, unitSize u = v.length) →
    ∃ us', writeModels us vs = .ok us' ∧ us'.length = us.length ∧
      (∀ n (h : n < us'.length) (h2 : n < vs.length), unitVector us'[n] = vs[n]) ∧
      (∀ n (h : n < us'.length) (h2 : n < us.length), vs.length ≤ n → us'[n] = us[n]) ∧
      us'.map (List.map SParam.numel) = us.map (List.map SParam.numel)
  | [], vs, _ => by
    refine ⟨[], by unfold writeModels; rfl, rfl, fun n h => absurd h (by simp), fun n h => absurd h (by simp), rfl⟩
  | u :: us, [], _ =>
    ⟨u :: us, rfl, rfl, fun n _ h2 => absurd h2 (by simp), fun n _ _ _ => rfl, rfl⟩
  | u :: us, v :: vs, h => by
    have hu := h u (by simp) v (by simp)
    obtain ⟨u', h1, h2, h3, -⟩ := writeParams_ok v u 0 (by omega)
    obtain ⟨us', g1, g2, g3, g4, g5⟩ := writeModels_ok us vs fun a ha b hb =>
      h a (List.mem_cons_of_mem _ ha) b (List.mem_cons_of_mem _ hb)
    refine ⟨u' :: us', ?_, by simp [g2], ?_, ?_, ?_⟩
    · unfold writeModels
      rw [h1]
      dsimp only
      rw [g1]
    · intro n hn hn2
      cases n with
      | zero =>
        show unitVector u' = v
        rw [h2, hu]
        simp
      | succ n => exact g3 n (by simpa using hn) (by simpa using hn2)
    · intro n hn hn2 hle
      cases n with
      | zero => simp at hle
      | succ n => exact g4 n (by simpa using hn) (by simpa using hn2) (by simpa using hle)
    · rw [List.map_cons, List.map_cons, h3, g5]

/-- The pdf-vectors of the units for one draw of everything. -/
theorem pdfvecsOf_eq (g : Gsm I R Q) (posts : Fin N → MLDC I) (eps : Fin N → Fin I → ℝ) (epsW : Fin (I * R) → ℝ)
    (epsB : Fin R → ℝ) :
    pdfvecsOf g posts eps epsW epsB = List.ofFn fun n => List.ofFn (g.pdfvec (superVector
      (matrixOf (drawn g.transform.postW.mean g.transform.postW.diagCov epsW))
      (drawn g.transform.postB.mean g.transform.postB.diagCov epsB)
      (drawn (posts n).mean (posts n).diagCov (eps n)))) := by
  unfold pdfvecsOf
  dsimp only
  congr 1
  funext n
  congr 1
  funext q
  rw [C101_expected_pdfvecs]
  simp

/-! ## C136 -/

/-- The inputs of `shmm setprior` that go together: files without labels, a group of units whose parameters have the
sizes of the pdf-vectors. -/
structure SetPriorOk (Q : ℕ) (file : PostsFile I N) (fileInit : PostsFile I M) (groups : List (List (List SParam)))
    (group : List (List SParam)) : Prop where
  labels : file.labels = none
  labelsInit : fileInit.labels = none
  found : groups[file.groupidx]? = some group
  sizes : ∀ u ∈ group, unitSize u = Q

/-- What `shmm setprior` saves, when the variance is positive. -/
theorem setPrior_ok (var : ℝ) (hv : 0 < var) (gsm gInit : Gsm I R Q) (file : PostsFile I N)
    (fileInit : PostsFile I M) (groups : List (List (List SParam))) (group : List (List SParam))
    (h : SetPriorOk Q file fileInit groups group) (e : Noise I R N M) :
    ∃ out t, setPrior var gsm file groups gInit fileInit e = .ok out ∧
      setTransform var gsm.transform gInit.transform = .ok t ∧
      out.gsm = ⟨t, gInit.priorMean, gInit.priorCov, gsm.pdfvec⟩ ∧
      out.posts = ⟨setPosts gInit file.posts fileInit.posts e.new, file.nunits, file.nstates, file.groupidx, none⟩ ∧
      writeModels (group.take file.nunits) (pdfvecsOf out.gsm out.posts.posts e.unit e.weights e.bias) =
        .ok out.units := by
  obtain ⟨t, ht⟩ : ∃ t, setTransform var gsm.transform gInit.transform = .ok t := by
    unfold setTransform
    rw [if_neg (not_le.2 hv)]
    exact ⟨_, rfl⟩
  obtain ⟨us, h1, -⟩ := writeModels_ok (group.take file.nunits)
    (pdfvecsOf { gsm with transform := t } (setPosts gInit file.posts fileInit.posts e.new) e.unit e.weights e.bias)
    (by
      intro u hu v hv
      rw [pdfvecsOf_eq] at hv
      obtain ⟨n, rfl⟩ := (List.mem_ofFn' _ _).1 hv
      rw [h.sizes u (List.mem_of_mem_take hu), List.length_ofFn])
  refine ⟨⟨⟨t, gInit.priorMean, gInit.priorCov, gsm.pdfvec⟩,
    ⟨setPosts gInit file.posts fileInit.posts e.new, file.nunits, file.nstates, file.groupidx, none⟩, us⟩, t, ?_, ht, rfl,
    rfl, ?_⟩
  · unfold setPrior unpack
    rw [h.labels, h.labelsInit]
    dsimp only
    rw [h.found]
    dsimp only
    rw [ht]
    dsimp only
    rw [h1]
  · rw [← h1]
    rfl

/-- The prior of the transform: its means are the posterior means of the other model, its variances the variance asked
for plus `1e-4`. -/
theorem C136_prior_partial (var : ℝ) (gsm gInit : Gsm I R Q) (file : PostsFile I N)
    (fileInit : PostsFile I M) (groups : List (List (List SParam))) (e : Noise I R N M) (out : Saved I R Q N)
    (h : setPrior var gsm file groups gInit fileInit e = .ok out) :
    0 < var ∧
    out.gsm.transform.priorW.mean = gInit.transform.postW.mean ∧
    out.gsm.transform.priorB.mean = gInit.transform.postB.mean ∧
    (∀ d, out.gsm.transform.priorW.diagCov d = var + 1 / 10000) ∧
    (∀ d, out.gsm.transform.priorB.diagCov d = var + 1 / 10000) ∧
    out.gsm.transform.postW = out.gsm.transform.priorW ∧ out.gsm.transform.postB = out.gsm.transform.priorB ∧
    out.gsm.priorMean = gInit.priorMean ∧ out.gsm.priorCov = gInit.priorCov ∧ out.gsm.pdfvec = gsm.pdfvec := by
  unfold setPrior at h
  cases h1 : unpack file with
  | error err => rw [h1] at h; simp at h
  | ok f =>
    obtain ⟨posts, nunits, nstates, groupidx⟩ := f
    rw [h1] at h
    dsimp only at h
    cases h2 : unpack fileInit with
    | error err => rw [h2] at h; simp at h
    | ok f2 =>
      obtain ⟨postsInit, a, b, c⟩ := f2
      rw [h2] at h
      dsimp only at h
      cases h3 : groups[groupidx]? with
      | none => rw [h3] at h; simp at h
      | some group =>
        rw [h3] at h
        dsimp only at h
        unfold setTransform at h
        by_cases hv : var ≤ 0
        · rw [if_pos hv] at h; simp at h
        · rw [if_neg hv] at h
          dsimp only at h
          split at h
          · simp at h
          · simp only [Except.ok.injEq] at h
            subst h
            have hv := not_le.1 hv
            have hd : 1 / 10000 + exp (0 + log var) = var + 1 / 10000 := by
              rw [zero_add, exp_log hv]; ring
            exact ⟨hv, rfl, rfl, fun d => hd, fun d => hd, rfl, rfl, rfl, rfl, rfl⟩

/-- Hence the variance of the new prior is never the variance asked for. -/
theorem C136_variance_fails (var : ℝ) (gsm gInit : Gsm I R Q) (file : PostsFile I N)
    (fileInit : PostsFile I M) (groups : List (List (List SParam))) (e : Noise I R N M) (out : Saved I R Q N)
    (h : setPrior var gsm file groups gInit fileInit e = .ok out) (d : Fin (I * R)) :
    out.gsm.transform.priorW.diagCov d ≠ var := by
  rw [(C136_prior_partial var gsm gInit file fileInit groups e out h).2.2.2.1 d]
  linarith

theorem mldc_valid {D : ℕ} (p : MLDC D) : Valid D (.normalDiag p.nd) := by
  refine ⟨?_, ?_, ?_⟩
  · exact List.length_ofFn
  · exact List.length_ofFn
  · intro x hx
    obtain ⟨d, rfl⟩ := (List.mem_ofFn' _ _).1 hx
    exact mldc_pos p d

/-- The posteriors start on the priors: their divergence is zero. -/
theorem C136_no_divergence (hI : 1 ≤ I) (hR : 1 ≤ R) (var : ℝ) (gsm gInit : Gsm I R Q) (file : PostsFile I N)
    (fileInit : PostsFile I M) (groups : List (List (List SParam))) (e : Noise I R N M) (out : Saved I R Q N)
    (h : setPrior var gsm file groups gInit fileInit e = .ok out) :
    klDiv (.normalDiag out.gsm.transform.postW.nd) (.normalDiag out.gsm.transform.priorW.nd) = .ok 0 ∧
    klDiv (.normalDiag out.gsm.transform.postB.nd) (.normalDiag out.gsm.transform.priorB.nd) = .ok 0 := by
  obtain ⟨-, -, -, -, -, h1, h2, -⟩ := C136_prior_partial var gsm gInit file fileInit groups e out h
  rw [h1, h2]
  exact ⟨(C39_kl_zero_iff (Nat.mul_pos hI hR) _ _ (mldc_valid _) (mldc_valid _) (.normalDiag _ _) (by simp)).2 rfl,
    (C39_kl_zero_iff hR _ _ (mldc_valid _) (mldc_valid _) (.normalDiag _ _) (by simp)).2 rfl⟩

/-- The latent posteriors: those of the other model for as many units as it has; the others keep their variances, and
their means are drawn around the mean of the latent prior of the other model. -/
theorem C136_posts (var : ℝ) (hv : 0 < var) (gsm gInit : Gsm I R Q) (file : PostsFile I N)
    (fileInit : PostsFile I M) (groups : List (List (List SParam))) (group : List (List SParam))
    (h : SetPriorOk Q file fileInit groups group) (e : Noise I R N M) :
    ∃ out, setPrior var gsm file groups gInit fileInit e = .ok out ∧
      (∀ (n : Fin N) (m : Fin M), n.1 = m.1 → out.posts.posts n = fileInit.posts m) ∧
      (∀ (n : Fin N) (k : Fin (N - min N M)), n.1 = M + k.1 →
        (out.posts.posts n).logVar = (file.posts n).logVar ∧
        (out.posts.posts n).mean = drawn gInit.priorMean (fun i => gInit.priorCov i i) (e.new k)) ∧
      out.posts.nunits = file.nunits ∧ out.posts.nstates = file.nstates ∧
      out.posts.groupidx = file.groupidx ∧ out.posts.labels = none := by
  obtain ⟨out, t, h1, h2, h3, h4, h5⟩ := setPrior_ok var hv gsm gInit file fileInit groups group h e
  refine ⟨out, h1, ?_, ?_, by rw [h4], by rw [h4], by rw [h4], by rw [h4]⟩
  · intro n m hnm
    rw [h4]
    have hn : n.1 < min N M := lt_min n.2 (hnm ▸ m.2)
    have hm : (⟨n.1, lt_of_lt_of_le hn (min_le_right N M)⟩ : Fin M) = m := Fin.ext hnm
    show setPosts gInit file.posts fileInit.posts e.new n = _
    unfold setPosts
    dsimp only
    split_ifs <;> · dsimp only; rw [dif_pos hn, hm]
  · intro n k hnk
    rw [h4]
    have hM : min N M = M := min_eq_right (by have := n.2; omega)
    have hn : ¬ n.1 < min N M := by omega
    have hN : min N M < N := by have := n.2; omega
    show (setPosts gInit file.posts fileInit.posts e.new n).logVar = _ ∧
      (setPosts gInit file.posts fileInit.posts e.new n).mean = _
    unfold setPosts
    dsimp only
    rw [if_pos hN, dif_neg hn]
    dsimp only
    rw [dif_neg hn]
    refine ⟨rfl, ?_⟩
    have hk : (⟨n.1 - min N M, Nat.sub_lt_sub_right (Nat.le_of_not_lt hn) n.2⟩ : Fin (N - min N M)) = k :=
      Fin.ext (by dsimp only; omega)
    funext i
    rw [hk]
    unfold drawn
    ring

/-- Covariances of independent normal variables. -/
theorem normalLaw_cov {D : ℕ} (m s : Fin D → ℝ) (hs : ∀ d, 0 ≤ s d) (i j : Fin D) :
    ∫ h, (h i - m i) * (h j - m j) ∂(normalLaw m s) = if i = j then s i else 0 := by
  have hi : ∀ i, ∫ h, (h i - m i) ∂(normalLaw m s) = 0 := by
    intro i
    have h := (measurePreserving_eval (μ := fun d => gaussianReal (m d) (s d).toNNReal) i)
    have h2 := integral_map (μ := normalLaw m s) (φ := Function.eval i) (f := fun y : ℝ => y - m i)
      h.measurable.aemeasurable (by fun_prop)
    unfold normalLaw at h2 ⊢
    rw [h.map_eq] at h2
    rw [← h2, integral_sub (f := fun y : ℝ => y) ((memLp_id_gaussianReal 1).integrable le_rfl) (integrable_const _), integral_const]
    simp [integral_id_gaussianReal]
  split_ifs with hij
  · subst hij
    have h := (measurePreserving_eval (μ := fun d => gaussianReal (m d) (s d).toNNReal) i)
    have h2 := integral_map (μ := normalLaw m s) (φ := Function.eval i) (f := fun y : ℝ => (y - m i) * (y - m i))
      h.measurable.aemeasurable (by fun_prop)
    unfold normalLaw at h2 ⊢
    rw [h.map_eq] at h2
    rw [← h2]
    have h3 := variance_fun_id_gaussianReal (μ := m i) (v := (s i).toNNReal)
    rw [variance_eq_integral (by fun_prop), integral_id_gaussianReal, Real.coe_toNNReal _ (hs i)] at h3
    refine Eq.trans ?_ h3
    congr 1
    funext y
    ring
  · have hind : iIndepFun (fun i (h : Fin D → ℝ) => h i - m i) (normalLaw m s) :=
      iIndepFun_pi (X := fun i x => x - m i) fun i => by fun_prop
    rw [(hind.indepFun hij).integral_fun_mul_eq_mul_integral
      (Measurable.aestronglyMeasurable (by fun_prop)) (Measurable.aestronglyMeasurable (by fun_prop)), hi, zero_mul]

/-- The law of the new means: each coordinate has the mean and the variance of the latent prior of the other model, -/
theorem C136_new_law (gInit : Gsm I R Q) (hc : ∀ i, 0 ≤ gInit.priorCov i i) :
    (stdNoise I).map (drawn gInit.priorMean fun i => gInit.priorCov i i) =
      normalLaw gInit.priorMean fun i => gInit.priorCov i i :=
  C102_sample_law _ _ hc

/-- but the coordinates are drawn independently: the correlations of the latent prior are lost. -/
theorem C136_correlations_lost (gInit : Gsm I R Q) (hc : ∀ i, 0 ≤ gInit.priorCov i i) (i j : Fin I) :
    ∫ h, (h i - gInit.priorMean i) * (h j - gInit.priorMean j)
      ∂((stdNoise I).map (drawn gInit.priorMean fun i => gInit.priorCov i i)) =
      if i = j then gInit.priorCov i i else 0 := by
  rw [C136_new_law gInit hc]
  exact normalLaw_cov _ _ hc i j

/-- The units: unit `n` of the saved phone-loop holds the pdf-vector of the super-vector `Wᵀ h + b`, for parameters and
a latent vector drawn from the new posteriors; units without latent posterior are left as they are. -/
theorem C136_units (var : ℝ) (hv : 0 < var) (gsm gInit : Gsm I R Q) (file : PostsFile I N)
    (fileInit : PostsFile I M) (groups : List (List (List SParam))) (group : List (List SParam))
    (h : SetPriorOk Q file fileInit groups group) (e : Noise I R N M) :
    ∃ out, setPrior var gsm file groups gInit fileInit e = .ok out ∧
      out.units.length = min file.nunits group.length ∧
      (∀ n : Fin N, ∀ u, out.units[n.1]? = some u → unitVector u = List.ofFn (gsm.pdfvec (superVector
        (matrixOf (drawn gInit.transform.postW.mean (fun _ => var + 1 / 10000) e.weights))
        (drawn gInit.transform.postB.mean (fun _ => var + 1 / 10000) e.bias)
        (drawn (out.posts.posts n).mean (out.posts.posts n).diagCov (e.unit n))))) ∧
      (∀ n, N ≤ n → n < file.nunits → out.units[n]? = group[n]?) := by
  obtain ⟨out, t, h1, h2, h3, h4, h5⟩ := setPrior_ok var hv gsm gInit file fileInit groups group h e
  obtain ⟨-, p1, p2, p3, p4, p5, p6, -, -, p7⟩ := C136_prior_partial var gsm gInit file fileInit groups e out h1
  obtain ⟨us, u1, u2, u3, u4, -⟩ := writeModels_ok (group.take file.nunits)
    (pdfvecsOf out.gsm out.posts.posts e.unit e.weights e.bias)
    (by
      intro u hu v hv
      rw [pdfvecsOf_eq] at hv
      obtain ⟨n, rfl⟩ := (List.mem_ofFn' _ _).1 hv
      rw [h.sizes u (List.mem_of_mem_take hu), List.length_ofFn])
  rw [u1, Except.ok.injEq] at h5
  subst h5
  refine ⟨out, h1, by rw [u2, List.length_take], ?_, ?_⟩
  · intro n u hu
    obtain ⟨hn, rfl⟩ := List.getElem?_eq_some_iff.1 hu
    rw [u3 n.1 hn (by rw [pdfvecsOf_eq, List.length_ofFn]; exact n.2)]
    simp only [pdfvecsOf_eq, List.getElem_ofFn]
    show List.ofFn (out.gsm.pdfvec (superVector
      (matrixOf (drawn out.gsm.transform.postW.mean out.gsm.transform.postW.diagCov e.weights))
      (drawn out.gsm.transform.postB.mean out.gsm.transform.postB.diagCov e.bias)
      (drawn (out.posts.posts n).mean (out.posts.posts n).diagCov (e.unit n)))) = _
    rw [p5, p6, p1, p2, p7, funext p3, funext p4]
  · intro n hn hn2
    by_cases hg : n < group.length
    · have hl : n < out.units.length := by rw [u2, List.length_take]; omega
      have hl2 : n < (group.take file.nunits).length := by rw [← u2]; exact hl
      rw [List.getElem?_eq_getElem hl, u4 n hl hl2 (by rw [pdfvecsOf_eq, List.length_ofFn]; exact hn),
        List.getElem?_eq_getElem hg, List.getElem_take]
    · rw [List.getElem?_eq_none (by rw [u2, List.length_take]; omega), List.getElem?_eq_none (by omega)]

/-- The errors: nothing is saved if a file is that of a model with classes, if the phone-loop has no such group or if
the variance is not positive. -/
theorem C136_errors (var : ℝ) (gsm gInit : Gsm I R Q) (file : PostsFile I N)
    (fileInit : PostsFile I M) (groups : List (List (List SParam))) (e : Noise I R N M) :
    (file.labels ≠ none ∨ fileInit.labels ≠ none →
      setPrior var gsm file groups gInit fileInit e = .error .valueError) ∧
    (file.labels = none → fileInit.labels = none → groups.length ≤ file.groupidx →
      setPrior var gsm file groups gInit fileInit e = .error .indexError) ∧
    (file.labels = none → fileInit.labels = none → file.groupidx < groups.length → var ≤ 0 →
      setPrior var gsm file groups gInit fileInit e = .error .valueError) ∧
    (∀ group u, file.labels = none → fileInit.labels = none → 0 < var → groups[file.groupidx]? = some group →
      group[0]? = some u → 0 < N → 0 < file.nunits → Q < unitSize u →
      setPrior var gsm file groups gInit fileInit e = .error .runtimeError) := by
  refine ⟨?_, ?_, ?_, ?_⟩
  · intro h
    unfold setPrior unpack
    cases h1 : file.labels with
    | some l => rfl
    | none =>
      cases h2 : fileInit.labels with
      | some l => rfl
      | none => simp [h1, h2] at h
  · intro h1 h2 h3
    unfold setPrior unpack
    rw [h1, h2]
    dsimp only
    rw [List.getElem?_eq_none h3]
  · intro h1 h2 h3 h4
    unfold setPrior unpack
    rw [h1, h2]
    dsimp only
    rw [List.getElem?_eq_getElem h3]
    dsimp only
    unfold setTransform
    rw [if_pos h4]
  · intro group u h1 h2 h3 h4 h5 h6 h7 h8
    unfold setPrior unpack
    rw [h1, h2]
    dsimp only
    rw [h4]
    dsimp only
    unfold setTransform
    rw [if_neg (not_le.2 h3)]
    dsimp only
    rw [pdfvecsOf_eq]
    obtain ⟨N', rfl⟩ : ∃ N', N = N' + 1 := ⟨N - 1, by omega⟩
    obtain ⟨k, hk⟩ : ∃ k, file.nunits = k + 1 := ⟨file.nunits - 1, by omega⟩
    cases group with
    | nil => simp at h5
    | cons v vs =>
      simp only [List.getElem?_cons_zero, Option.some.injEq] at h5
      subst h5
      rw [hk, List.take_succ_cons, List.ofFn_succ]
      unfold writeModels
      rw [writeParams_short _ v 0 (Nat.zero_le _) (by rw [List.length_ofFn]; omega)]

theorem writeParams_numel (v : List ℝ) : ∀ (a b : List SParam) (idx : ℕ), a.map SParam.numel = b.map SParam.numel →
    writeParams v a idx = writeParams v b idx
  | [], [], _, _ => rfl
  | [], _ :: _, _, h => by simp at h
  | _ :: _, [], _, h => by simp at h
  | p :: ps, q :: qs, idx, h => by
    simp only [List.map_cons, List.cons.injEq] at h
    unfold writeParams
    dsimp only
    rw [h.1, writeParams_numel v ps qs (idx + q.numel) h.2]

theorem writeModels_numel : ∀ (a b : List (List SParam)) (vs : List (List ℝ)), a.length ≤ vs.length →
    a.map (List.map SParam.numel) = b.map (List.map SParam.numel) → writeModels a vs = writeModels b vs
  | [], [], _, _, _ => rfl
  | [], _ :: _, _, _, h => by simp at h
  | _ :: _, [], _, _, h => by simp at h
  | _ :: _, _ :: _, [], hl, _ => by simp at hl
  | p :: ps, q :: qs, v :: vs, hl, h => by
    simp only [List.map_cons, List.cons.injEq] at h
    unfold writeModels
    rw [writeParams_numel v p q 0 h.1, writeModels_numel ps qs vs (by simpa using hl) h.2]

/-- The two commands agree: `shmm init` on the saved model and posteriors gives the saved phone-loop back when the draws
are the same; it changes neither the model nor the posteriors, which it does not save. -/
theorem C136_init_agrees (var : ℝ) (hv : 0 < var) (gsm gInit : Gsm I R Q) (file : PostsFile I N)
    (fileInit : PostsFile I M) (groups : List (List (List SParam))) (group : List (List SParam))
    (h : SetPriorOk Q file fileInit groups group) (hN : file.nunits ≤ N) (e : Noise I R N M) :
    ∃ out, setPrior var gsm file groups gInit fileInit e = .ok out ∧
      initLoop out.gsm out.posts (groups.set file.groupidx out.units) e.unit e.weights e.bias = .ok out.units := by
  obtain ⟨out, t, h1, h2, h3, h4, h5⟩ := setPrior_ok var hv gsm gInit file fileInit groups group h e
  obtain ⟨us, u1, u2, -, -, u5⟩ := writeModels_ok (group.take file.nunits)
    (pdfvecsOf out.gsm out.posts.posts e.unit e.weights e.bias)
    (by
      intro u hu v hv
      rw [pdfvecsOf_eq] at hv
      obtain ⟨n, rfl⟩ := (List.mem_ofFn' _ _).1 hv
      rw [h.sizes u (List.mem_of_mem_take hu), List.length_ofFn])
  have hus : out.units = us := by
    rw [u1, Except.ok.injEq] at h5
    exact h5.symm
  refine ⟨out, h1, ?_⟩
  have hidx : file.groupidx < groups.length := (List.getElem?_eq_some_iff.1 h.found).1
  unfold initLoop unpack
  rw [h4]
  dsimp only
  rw [List.getElem?_set_self hidx]
  dsimp only
  have ht : out.units.take file.nunits = out.units := by
    apply List.take_of_length_le
    rw [hus, u2, List.length_take]
    omega
  rw [ht]
  have := writeModels_numel out.units (group.take file.nunits)
    (pdfvecsOf out.gsm out.posts.posts e.unit e.weights e.bias)
    (by rw [pdfvecsOf_eq, List.length_ofFn, hus, u2, List.length_take]; omega) (by rw [hus, u5])
  rw [h4] at this h5
  exact this.trans h5

/-- Setting the prior twice from the same model changes nothing more, but for the means of the units the other model
does not have. -/
theorem C136_repeat (var : ℝ) (hv : 0 < var) (gsm gInit : Gsm I R Q) (file : PostsFile I N)
    (fileInit : PostsFile I M) (groups : List (List (List SParam))) (group : List (List SParam))
    (h : SetPriorOk Q file fileInit groups group) (e e' : Noise I R N M) :
    ∃ out out', setPrior var gsm file groups gInit fileInit e = .ok out ∧
      setPrior var out.gsm out.posts groups gInit fileInit e' = .ok out' ∧ out'.gsm = out.gsm ∧
      (∀ n : Fin N, n.1 < M → out'.posts.posts n = out.posts.posts n) ∧
      (∀ n : Fin N, (out'.posts.posts n).logVar = (out.posts.posts n).logVar) := by
  obtain ⟨out, t, h1, h2, h3, h4, h5⟩ := setPrior_ok var hv gsm gInit file fileInit groups group h e
  have h' : SetPriorOk Q out.posts fileInit groups group := by
    rw [h4]
    exact ⟨rfl, h.labelsInit, h.found, h.sizes⟩
  obtain ⟨out', t', g1, g2, g3, g4, -⟩ := setPrior_ok var hv out.gsm gInit out.posts fileInit groups group h' e'
  obtain ⟨o1, ho1, a1, a2, -⟩ := C136_posts var hv gsm gInit file fileInit groups group h e
  obtain ⟨o2, ho2, b1, b2, -⟩ := C136_posts var hv out.gsm gInit out.posts fileInit groups group h' e'
  rw [h1, Except.ok.injEq] at ho1
  rw [g1, Except.ok.injEq] at ho2
  subst ho1 ho2
  have heq : ∀ n : Fin N, n.1 < M → out'.posts.posts n = out.posts.posts n := fun n hn => by
    rw [a1 n ⟨n.1, hn⟩ rfl, b1 n ⟨n.1, hn⟩ rfl]
  refine ⟨out, out', h1, g1, ?_, heq, ?_⟩
  · rw [g3, h3]
    unfold setTransform at g2 h2
    rw [if_neg (not_le.2 hv), Except.ok.injEq] at g2 h2
    rw [← g2, ← h2]
  · intro n
    by_cases hn : n.1 < M
    · rw [heq n hn]
    · have hlt := n.2
      exact (b2 n ⟨n.1 - M, by omega⟩ (by dsimp only; omega)).1

/-- Two units, another model with one unit: the second unit is drawn around the latent prior (mean 3, variance 4) of the
other model. -/
def demoPost (m : ℝ) : MLDC 1 := ⟨fun _ => m, fun _ => 0⟩

def demoGsm (w m c : ℝ) : Gsm 1 1 1 :=
  ⟨⟨⟨fun _ => 0, fun _ => 0⟩, ⟨fun _ => w, fun _ => 0⟩, ⟨fun _ => 0, fun _ => 0⟩, ⟨fun _ => 0, fun _ => 0⟩⟩,
    fun _ => m, fun _ _ => c, fun r => r⟩

def demoNoise : Noise 1 1 2 1 := ⟨fun _ _ => 1, fun _ _ => 0, fun _ => 0, fun _ => 0⟩

def demoFile : PostsFile 1 2 := ⟨fun _ => demoPost 0, 2, 1, 1, none⟩

def demoUnits : List (List (List SParam)) := [[], [[⟨1, [0]⟩], [⟨1, [0]⟩]]]

theorem demo_setPrior_ok : SetPriorOk 1 demoFile (⟨fun _ => demoPost 7, 1, 1, 1, none⟩ : PostsFile 1 1) demoUnits
    [[⟨1, [0]⟩], [⟨1, [0]⟩]] := by
  refine ⟨rfl, rfl, rfl, ?_⟩
  intro u hu
  simp only [List.mem_cons, List.not_mem_nil, or_false, or_self] at hu
  subst hu
  rfl

example : ∃ out, setPrior 1 (demoGsm 0 0 1) demoFile demoUnits (demoGsm 2 3 4)
    (⟨fun _ => demoPost 7, 1, 1, 1, none⟩ : PostsFile 1 1) demoNoise = .ok out ∧
    (out.posts.posts 0).mean 0 = 7 ∧ (out.posts.posts 1).mean 0 = 5 ∧ out.units.map unitVector = [[14], [10]] := by
  obtain ⟨out, h1, h2, h3, -⟩ := C136_units 1 one_pos (demoGsm 0 0 1) (demoGsm 2 3 4) demoFile _ demoUnits _
    demo_setPrior_ok demoNoise
  obtain ⟨out', g1, g2, g3, -⟩ := C136_posts 1 one_pos (demoGsm 0 0 1) (demoGsm 2 3 4) demoFile _ demoUnits _
    demo_setPrior_ok demoNoise
  rw [h1, Except.ok.injEq] at g1
  subst g1
  have m0 : (out.posts.posts 0).mean 0 = 7 := by rw [g2 0 0 rfl]; rfl
  have m1 : (out.posts.posts 1).mean 0 = 5 := by
    rw [(g3 1 ⟨0, by decide⟩ rfl).2]
    show (3 : ℝ) + √4 * 1 = 5
    rw [show (4 : ℝ) = 2 ^ 2 by norm_num, Real.sqrt_sq (by norm_num)]
    norm_num
  refine ⟨out, h1, m0, m1, ?_⟩
  have hl : out.units.length = 2 := h2
  have hu : out.units = [out.units[0], out.units[1]] := by
    apply List.ext_getElem
    · simpa using hl
    · intro n hn hn2
      have : n < 2 := by omega
      interval_cases n <;> rfl
  have key : ∀ n : Fin 2, ∀ u, out.units[n.1]? = some u → unitVector u = [2 * (out.posts.posts n).mean 0] := by
    intro n u hu
    rw [h3 n u hu]
    have : ∀ m : ℝ, (fun r : Fin 1 → ℝ => r) (superVector (matrixOf (I := 1) (R := 1) (drawn (fun _ => 2)
        (fun _ => (1 : ℝ) + 1 / 10000) fun _ => 0)) (drawn (fun _ => 0) (fun _ => (1 : ℝ) + 1 / 10000) fun _ => 0)
        fun _ => m) = fun _ => 2 * m := by
      intro m
      funext r
      simp [superVector, Matrix.mulVec, dotProduct, matrixOf, drawn]
    have hd : drawn (out.posts.posts n).mean (out.posts.posts n).diagCov (demoNoise.unit n) =
        fun _ => (out.posts.posts n).mean 0 := by
      funext i
      rw [Subsingleton.elim i 0]
      show (out.posts.posts n).mean 0 + _ * (0 : ℝ) = _
      rw [mul_zero, add_zero]
    rw [hd]
    refine (congrArg List.ofFn (this _)).trans ?_
    simp
  rw [hu]
  show [unitVector out.units[0], unitVector out.units[1]] = _
  have k0 := key 0 out.units[0] (List.getElem?_eq_getElem (by omega))
  have k1 := key 1 out.units[1] (List.getElem?_eq_getElem (by omega))
  rw [k0, k1, m0, m1]
  norm_num

end Verif.Props
