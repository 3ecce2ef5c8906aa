import Verif.Lemmas.HierGSM
import Verif.Props.GSMExpect
import Verif.Props.Inference

/-!
# C105, C106: hierarchical subspace models
-/

namespace Verif.Props

open Verif Verif.GSM Verif.GSMSpec Verif.Dists Verif.DistSpec Real MeasureTheory ProbabilityTheory

variable {V : Type} {H I O Qu Qr Q N L P B U G : ℕ}

/-! ## C105 -/

/-- C105: the output number `a * B + b` of the transform of a language for the input `x` is `Wᵀ x + c`,
where the numbers of `W`, row by row, and then those of `c` are the super-vector of the root for the
sample `a` of the latent vector of the language and the sample `b` of the root. -/
theorem C105_generated_subspace (r : HRoot V H I O Qr) (g : HLang V H I O Qu Q N)
    (e : HNoise H I O N L P B U) {M : ℕ} (X : Fin M → Fin I → ℝ) (m : Fin M) (a : Fin P) (b : Fin B)
    (k : Fin (1 * (P * B))) (hk : k.1 = a.1 * B + b.1) :
    hierTransform r g e X m k =
      unitVector (drawn r.transform.postW.mean r.transform.postW.diagCov (e.weights b))
        (drawn r.transform.postB.mean r.transform.postB.diagCov (e.bias b))
        (drawn g.langPost.mean g.langPost.diagCov (e.lang a)) (X m) := by
  have : k = finProdFinEquiv (0, finProdFinEquiv (a, b)) := by
    refine eq_pair 0 (finProdFinEquiv (a, b)) k ?_
    rw [pair_val, hk]
    simp
  rw [this]
  exact hierTransform_eq r g e X m a b

/-- C105: the expected pdf-vector of a unit is the average over all combinations of a sample of the unit,
a sample of its language and a sample of the root. -/
theorem C105_expected_pdfvecs (r : HRoot V H I O Qr) (g : HLang V H I O Qu Q N)
    (e : HNoise H I O N L P B U) (n : Fin N) (q : Fin Q) :
    hierPdfvecs r g e n q =
      average fun l => average fun a => average fun b => g.pdfvec (unitSample r g e n l a b) q :=
  hierPdfvecs_eq r g e n q

/-- The sampled bound: terms of the units and of the languages, and the divergence of every global
parameter once: those of the root, and those of the prior over units shared by the languages. -/
noncomputable def hierBound {Ns : Fin G → ℕ} (kl : ℕ → ℝ) (r : HRoot V H I O Qr) (shared : List (List ℕ))
    (langs : (l : Fin G) → HLang V H I O Qu Q (Ns l))
    (e : (l : Fin G) → HNoise H I O (Ns l) L P B U) : ℝ :=
  ∑ l, (∑ n, unitTerm r (langs l) (e l) n - langTerm r (langs l) (e l)) -
    ((r.priorGroups.flatten.map kl).sum + kl r.weightsId + kl r.biasId +
      (shared.flatten.map kl).sum)

/-- C105: the objective of `G` languages is the bound, minus `G - 1` further times the divergence of
the prior over units: every language subtracts it. The divergences of the root are subtracted once. -/
theorem C105_objective {Ns : Fin G → ℕ} (hG : 0 < G) (hN : ∀ l, 0 < Ns l) (hL : 0 < L) (hU : 0 < U)
    (kl : ℕ → ℝ) (r : HRoot V H I O Qr) (shared : List (List ℕ))
    (langs : (l : Fin G) → HLang V H I O Qu Q (Ns l))
    (hsh : ∀ l, (langs l).priorGroups = shared)
    (e : (l : Fin G) → HNoise H I O (Ns l) L P B U) :
    ∃ v, hierElbo kl r langs e = .ok v ∧
      v.value = hierBound kl r shared langs e - ((G : ℝ) - 1) * (shared.flatten.map kl).sum ∧
      v.params = (r.groups.flatten).toFinset ∧
      v.acc = r.priorAcc (fun _ q => ∑ l, average fun u => r.priorStats
        (drawn (langs l).langPost.mean (langs l).langPost.diagCov ((e l).univ u)) q) ∧
      v.mb = G ∧ v.datasize = G ∧ v.isTensor = true := by
  have hG' : (G : ℝ) ≠ 0 := by exact_mod_cast hG.ne'
  choose s hs hv using fun l => hierSubElbo_ok (hN l) kl r (langs l) (e l)
  unfold hierElbo
  rw [VB.seqFin_ok _ s hs]
  dsimp only
  unfold evidenceLowerBound
  simp only [List.length_finRange, hG.ne', if_false]
  refine ⟨_, rfl, ?_, rfl, ?_, rfl, by simp, rfl⟩
  · dsimp only
    simp only [hv, hierUnitLlh_eq hL, langTerm_eq hU]
    have hk : ∀ l, klOfGroups kl (langs l).groups = (shared.flatten.map kl).sum := by
      intro l
      unfold klOfGroups HLang.groups
      rw [List.append_nil, hsh]
    have hr : klOfGroups kl r.groups =
        (r.priorGroups.flatten.map kl).sum + kl r.weightsId + kl r.biasId := by
      unfold klOfGroups HRoot.groups
      simp [List.flatten_append]
      ring
    simp only [hk, hr]
    unfold hierBound
    have : ∀ f h : Fin G → ℝ, ∀ c : ℝ, ∑ l, (f l - c - h l) = ∑ l, (f l - h l) - (G : ℝ) * c := by
      intro f h c
      simp only [Finset.sum_sub_distrib, Finset.sum_const, Finset.card_univ, Fintype.card_fin,
        nsmul_eq_mul]
      ring
    rw [this]
    have h1 : (((if (-1 : ℤ) ≤ 0 then ((G : ℕ) : ℤ) else -1 : ℤ) : ℝ) / (G : ℝ)) = 1 := by
      simp [hG']
    simp only [h1]
    ring
  · dsimp only
    congr 1
    funext i q
    refine Finset.sum_congr rfl fun l _ => ?_
    rw [lpStats_eq]
    simp only [mldc_sample]

/-- C105, what holds: with one language, or when the posterior of the prior over units is the prior
itself (no divergence), the objective is the bound. -/
theorem C105_objective_partial {Ns : Fin G → ℕ} (hG : 0 < G) (hN : ∀ l, 0 < Ns l) (hL : 0 < L)
    (hU : 0 < U) (kl : ℕ → ℝ) (r : HRoot V H I O Qr) (shared : List (List ℕ))
    (langs : (l : Fin G) → HLang V H I O Qu Q (Ns l))
    (hsh : ∀ l, (langs l).priorGroups = shared)
    (e : (l : Fin G) → HNoise H I O (Ns l) L P B U)
    (h : G = 1 ∨ (shared.flatten.map kl).sum = 0) :
    ∃ v, hierElbo kl r langs e = .ok v ∧ v.value = hierBound kl r shared langs e := by
  obtain ⟨v, h1, h2, -⟩ := C105_objective hG hN hL hU kl r shared langs hsh e
  refine ⟨v, h1, ?_⟩
  rw [h2]
  rcases h with h | h
  · simp [h]
  · rw [h, mul_zero, sub_zero]

/-- A root and a language of dimension one. -/
def hierRoot1 : HRoot ℝ 1 1 1 1 :=
  { transform := ⟨⟨fun _ => 0, fun _ => 0⟩, ⟨fun _ => 0, fun _ => 0⟩, ⟨fun _ => 0, fun _ => 0⟩,
      ⟨fun _ => 0, fun _ => 0⟩⟩
    weightsId := 1, biasId := 2, priorStats := fun x => x, priorLlh := fun _ _ => 0
    priorGroups := [[3]]
    priorAcc := fun s k => if k = 3 then some (s 0 0) else none }

def hierLang1 : HLang ℝ 1 1 1 1 1 1 :=
  { langPost := ⟨fun _ => 0, fun _ => 0⟩, posts := fun _ => ⟨fun _ => 0, fun _ => 0⟩
    stats := fun _ _ => 1, pdfvec := fun x => x, priorStats := fun x => x
    priorLlh := fun _ _ => 0, priorGroups := [[4]]
    priorAcc := fun s k => if k = 4 then some (s 0 0) else none }

def hierNoise1 : HNoise 1 1 1 1 1 1 1 1 :=
  ⟨fun _ _ _ => 0, fun _ _ => 0, fun _ _ => 0, fun _ _ => 0, fun _ _ => 0⟩

/-- C105, violated: with two languages sharing a prior over units whose posterior has moved, the
objective is below the bound. -/
theorem C105_shared_divergence_repeated :
    ∃ v, hierElbo (fun k => if k = 4 then 1 else 0) hierRoot1 (fun _ : Fin 2 => hierLang1)
        (fun _ => hierNoise1) = .ok v ∧
      v.value = hierBound (fun k => if k = 4 then 1 else 0) hierRoot1 [[4]]
        (fun _ : Fin 2 => hierLang1) (fun _ => hierNoise1) - 1 := by
  obtain ⟨v, h1, h2, -⟩ := C105_objective (by norm_num) (fun _ => by norm_num) (by norm_num)
    (by norm_num) (fun k => if k = 4 then 1 else 0) hierRoot1 [[4]] (fun _ : Fin 2 => hierLang1)
    (fun _ => rfl) (fun _ => hierNoise1)
  refine ⟨v, h1, ?_⟩
  rw [h2]
  norm_num

theorem evidence_err (m : BModel ℝ V X) : evidenceLowerBound (some m) (some []) (-1) =
    .error .zeroDivision := rfl

theorem seqFin_error {α : Type} {M : ℕ} (f : Fin M → Except Err α) (er : Err)
    (h : ∀ m, (∃ a, f m = .ok a) ∨ f m = .error er) (hm : ∃ m, f m = .error er) :
    VB.seqFin f = .error er := by
  induction M with
  | zero => obtain ⟨m, -⟩ := hm; exact m.elim0
  | succ M ih =>
    unfold VB.seqFin
    rcases h 0 with ⟨a, ha⟩ | ha
    · rw [ha]
      dsimp only
      rw [ih (fun i => f i.succ) (fun m => h m.succ) ?_]
      obtain ⟨m, hm⟩ := hm
      refine Fin.cases (fun hm => ?_) (fun i hm => ⟨i, hm⟩) m hm
      rw [ha] at hm
      cases hm
    · rw [ha]

/-- C105: without languages, or when a language has no unit, the objective raises a
`ZeroDivisionError`. -/
theorem C105_errors {Ns : Fin G → ℕ} (kl : ℕ → ℝ) (r : HRoot V H I O Qr)
    (langs : (l : Fin G) → HLang V H I O Qu Q (Ns l))
    (e : (l : Fin G) → HNoise H I O (Ns l) L P B U) (h : G = 0 ∨ ∃ l, Ns l = 0) :
    hierElbo kl r langs e = .error .zeroDivision := by
  have hsub : ∀ l, Ns l = 0 → hierSubElbo kl r (langs l) (e l) = .error .zeroDivision := by
    intro l hl
    unfold hierSubElbo evidenceLowerBound
    simp [hl]
  rcases h with h | ⟨l, hl⟩
  · subst h
    rfl
  · unfold hierElbo
    rw [seqFin_error _ .zeroDivision ?_ ⟨l, hsub l hl⟩]
    intro m
    rcases Nat.eq_zero_or_pos (Ns m) with h0 | h0
    · exact Or.inr (hsub m h0)
    · obtain ⟨s, hs, -⟩ := hierSubElbo_ok h0 kl r (langs m) (e m)
      exact Or.inl ⟨s, hs⟩

/-- Functions of the noise with the same integral: so has their average. -/
theorem integral_average {Ω : Type*} [MeasurableSpace Ω] (μ : Measure Ω) {S : ℕ} (hS : 0 < S)
    (f : Fin S → Ω → ℝ) (c : ℝ) (h : ∀ j, Integrable (f j) μ ∧ ∫ ω, f j ω ∂μ = c) :
    Integrable (fun ω => DistSpec.average fun j => f j ω) μ ∧
      ∫ ω, DistSpec.average (fun j => f j ω) ∂μ = c := by
  have hS' : (S : ℝ) ≠ 0 := by exact_mod_cast hS.ne'
  unfold DistSpec.average
  refine ⟨(integrable_finsetSum _ fun j _ => (h j).1).const_mul _, ?_⟩
  rw [integral_const_mul, integral_finsetSum _ (fun j _ => (h j).1),
    Finset.sum_congr rfl fun j _ => (h j).2]
  simp [hS']

theorem law_transfer {Ω α β : Type*} [MeasurableSpace Ω] [MeasurableSpace α] [MeasurableSpace β]
    (μ : Measure Ω) (ν : Measure α) [IsProbabilityMeasure ν] (X : Ω → α) (hX : μ.map X = ν)
    (d : α → β) (hd : Measurable d) (F : β → ℝ) (hF : Integrable F (ν.map d)) :
    Integrable (fun ω => F (d (X ω))) μ ∧ ∫ ω, F (d (X ω)) ∂μ = ∫ y, F y ∂(ν.map d) := by
  have hae : AEMeasurable X μ := by
    by_contra hn
    have h0 := Measure.map_of_not_aemeasurable hn
    rw [hX] at h0
    exact IsProbabilityMeasure.ne_zero _ h0
  have hdX : AEMeasurable (fun ω => d (X ω)) μ := hd.comp_aemeasurable hae
  have e : μ.map (fun ω => d (X ω)) = ν.map d := by
    rw [← hX]
    exact (AEMeasurable.map_map_of_aemeasurable hd.aemeasurable hae).symm
  rw [← e] at hF ⊢
  exact ⟨(integrable_map_measure hF.aestronglyMeasurable hdX).1 hF,
    (integral_map hdX hF.aestronglyMeasurable).symm⟩

/-- The sampled divergence of the draws of one posterior, for a prior affine in the statistics. -/
theorem divergence_unbiased {Ω : Type*} [MeasurableSpace Ω] (μ : Measure Ω) {D S K : ℕ} (hS : 0 < S)
    (m s : Fin D → ℝ) (hs : ∀ d, 0 < s d) (st : (Fin D → ℝ) → Fin K → ℝ) (a : Fin K → ℝ) (b : ℝ)
    (eps : Fin S → Ω → Fin D → ℝ) (hlaw : ∀ j, μ.map (eps j) = stdNoise D)
    (hst : ∀ q, Integrable (fun h => st h q) (normalLaw m s)) :
    Integrable (fun ω => DistSpec.average (fun j => logDensity m s (drawn m s (eps j ω))) -
      (∑ q, a q * DistSpec.average (fun j => st (drawn m s (eps j ω)) q) + b)) μ ∧
    ∫ ω, (DistSpec.average (fun j => logDensity m s (drawn m s (eps j ω))) -
      (∑ q, a q * DistSpec.average (fun j => st (drawn m s (eps j ω)) q) + b)) ∂μ =
    ∫ h, (logDensity m s h - (∑ q, a q * st h q + b)) ∂normalLaw m s := by
  have e : ∀ ω, DistSpec.average (fun j => logDensity m s (drawn m s (eps j ω))) -
      (∑ q, a q * DistSpec.average (fun j => st (drawn m s (eps j ω)) q) + b) =
      DistSpec.average fun j => logDensity m s (drawn m s (eps j ω)) -
        (∑ q, a q * st (drawn m s (eps j ω)) q + b) := by
    intro ω
    rw [affine_average hS a b fun j q => st (drawn m s (eps j ω)) q]
    unfold DistSpec.average
    rw [Finset.sum_sub_distrib]; ring
  simp only [e]
  refine integral_average μ hS _ _ fun j => ?_
  have haf : Integrable (fun h => ∑ q, a q * st h q + b) (normalLaw m s) :=
    (integrable_finsetSum _ fun q _ => (hst q).const_mul (a q)).add (integrable_const b)
  have hF : Integrable (fun h => logDensity m s h - (∑ q, a q * st h q + b)) (normalLaw m s) :=
    (integrable_logDensity m s hs).sub haf
  have hl := C102_sample_law m s fun d => (hs d).le
  rw [← hl] at hF ⊢
  exact law_transfer μ (stdNoise D) (eps j) (hlaw j) (drawn m s) (measurable_drawn _ _) _ hF

/-- Expectation of the term of a unit. -/
theorem unitTerm_unbiased {Ω : Type*} [MeasurableSpace Ω] (μ : Measure Ω)
    (hL : 0 < L) (hP : 0 < P) (hB : 0 < B)
    (r : HRoot V H I O Qr) (g : HLang V H I O Qu Q N) (a : Fin Qu → ℝ) (b : ℝ)
    (hprior : ∀ st n, g.priorLlh st n = ∑ q, a q * st n q + b)
    (e : Ω → HNoise H I O N L P B U) (n : Fin N)
    (hlaw : ∀ l i j, μ.map (fun ω => ((e ω).unit n l, (e ω).lang i, (e ω).weights j, (e ω).bias j)) =
      (stdNoise I).prod ((stdNoise H).prod ((stdNoise _).prod (stdNoise _))))
    (hpdf : ∀ q, Integrable (fun x => g.pdfvec (unitVector x.2.2.1 x.2.2.2 x.2.1 x.1) q)
      (hierLaw r g n))
    (hst : ∀ q, Integrable (fun h => g.priorStats h q)
      (normalLaw (g.posts n).mean (g.posts n).diagCov)) :
    Integrable (fun ω => unitTerm r g (e ω) n) μ ∧ ∫ ω, unitTerm r g (e ω) n ∂μ =
      (∑ q, (∫ x, g.pdfvec (unitVector x.2.2.1 x.2.2.2 x.2.1 x.1) q ∂hierLaw r g n) * g.stats n q) -
      ∫ h, (logDensity (g.posts n).mean (g.posts n).diagCov h - (∑ q, a q * g.priorStats h q + b))
        ∂normalLaw (g.posts n).mean (g.posts n).diagCov := by
  let T := r.transform
  let d4 : (Fin I → ℝ) × (Fin H → ℝ) × (Fin (H * (I * O + O)) → ℝ) × (Fin (I * O + O) → ℝ) →
      (Fin I → ℝ) × (Fin H → ℝ) × (Fin (H * (I * O + O)) → ℝ) × (Fin (I * O + O) → ℝ) :=
    Prod.map (drawn (g.posts n).mean (g.posts n).diagCov)
      (Prod.map (drawn g.langPost.mean g.langPost.diagCov)
        (Prod.map (drawn T.postW.mean T.postW.diagCov) (drawn T.postB.mean T.postB.diagCov)))
  have m2 : Measurable (Prod.map (drawn T.postW.mean T.postW.diagCov)
      (drawn T.postB.mean T.postB.diagCov)) :=
    (measurable_drawn _ _).prodMap (measurable_drawn _ _)
  have m3 : Measurable (Prod.map (drawn g.langPost.mean g.langPost.diagCov)
        (Prod.map (drawn T.postW.mean T.postW.diagCov) (drawn T.postB.mean T.postB.diagCov))) :=
    (measurable_drawn _ _).prodMap m2
  have hd4 : Measurable d4 := (measurable_drawn _ _).prodMap m3
  have h4 : ((stdNoise I).prod ((stdNoise H).prod ((stdNoise (H * (I * O + O))).prod
      (stdNoise (I * O + O))))).map d4 = hierLaw r g n := by
    unfold hierLaw
    rw [← C102_sample_law _ _ (mldc_nonneg (g.posts n)), ← C102_sample_law _ _ (mldc_nonneg g.langPost),
      ← C102_sample_law _ _ (mldc_nonneg r.transform.postW),
      ← C102_sample_law _ _ (mldc_nonneg r.transform.postB),
      Measure.map_prod_map _ _ (measurable_drawn _ _) (measurable_drawn _ _),
      Measure.map_prod_map _ _ (measurable_drawn _ _) m2,
      Measure.map_prod_map _ _ (measurable_drawn _ _) m3]
  have i1 : ∀ q, Integrable (fun ω => DistSpec.average fun l => DistSpec.average fun i =>
      DistSpec.average fun j => g.pdfvec (unitSample r g (e ω) n l i j) q) μ ∧
      ∫ ω, DistSpec.average (fun l => DistSpec.average fun i => DistSpec.average fun j =>
        g.pdfvec (unitSample r g (e ω) n l i j) q) ∂μ =
      ∫ x, g.pdfvec (unitVector x.2.2.1 x.2.2.2 x.2.1 x.1) q ∂hierLaw r g n := by
    intro q
    refine integral_average μ hL _ _ fun l => integral_average μ hP _ _ fun i =>
      integral_average μ hB _ _ fun j => ?_
    have hq := hpdf q
    rw [← h4] at hq ⊢
    exact law_transfer μ _ _ (hlaw l i j) d4 hd4
      (fun x => g.pdfvec (unitVector x.2.2.1 x.2.2.2 x.2.1 x.1) q) hq
  have hu : ∀ l, μ.map (fun ω => (e ω).unit n l) = stdNoise I := by
    intro l
    have hX := hlaw l ⟨0, hP⟩ ⟨0, hB⟩
    have hae : AEMeasurable (fun ω => ((e ω).unit n l, (e ω).lang ⟨0, hP⟩, (e ω).weights ⟨0, hB⟩,
        (e ω).bias ⟨0, hB⟩)) μ := by
      by_contra hn
      have h0 := Measure.map_of_not_aemeasurable hn
      rw [hX] at h0
      exact IsProbabilityMeasure.ne_zero _ h0
    have e1 := AEMeasurable.map_map_of_aemeasurable measurable_fst.aemeasurable hae
    rw [hX] at e1
    have e2 : (Prod.fst ∘ fun ω => ((e ω).unit n l, (e ω).lang ⟨0, hP⟩, (e ω).weights ⟨0, hB⟩,
        (e ω).bias ⟨0, hB⟩)) = fun ω => (e ω).unit n l := rfl
    rw [e2] at e1
    rw [← e1, ← Measure.fst, Measure.fst_prod]
  have i2 := divergence_unbiased μ hL (g.posts n).mean (g.posts n).diagCov (mldc_pos (g.posts n))
    g.priorStats a b (fun l ω => (e ω).unit n l) hu hst
  have i3 : Integrable (fun ω => ∑ q, DistSpec.average (fun l => DistSpec.average fun i =>
      DistSpec.average fun j => g.pdfvec (unitSample r g (e ω) n l i j) q) * g.stats n q) μ :=
    integrable_finsetSum _ fun q _ => (i1 q).1.mul_const _
  unfold unitTerm
  simp only [hprior]
  refine ⟨i3.sub i2.1, ?_⟩
  rw [integral_sub i3 i2.1, i2.2, integral_finsetSum _ fun q _ => (i1 q).1.mul_const _]
  congr 1
  refine Finset.sum_congr rfl fun q _ => ?_
  rw [integral_mul_const, (i1 q).2]

/-- C105, unbiasedness: when the draws are standard normal noise, independent between the unit, the
language, the weights and the bias of each combination, the expectation of the objective is, for any
numbers of samples: the expected log-likelihood of the statistics of all the units under the variational
posterior, minus the divergences of the latent posteriors of the units and of the languages, minus the
divergences of the global parameters (that of the shared prior over units once per language). -/
theorem C105_unbiased {Ω : Type*} [MeasurableSpace Ω] (μ : Measure Ω) [IsProbabilityMeasure μ]
    {Ns : Fin G → ℕ} (hG : 0 < G) (hN : ∀ l, 0 < Ns l) (hL : 0 < L) (hP : 0 < P) (hB : 0 < B)
    (hU : 0 < U) (kl : ℕ → ℝ) (r : HRoot V H I O Qr) (shared : List (List ℕ))
    (langs : (l : Fin G) → HLang V H I O Qu Q (Ns l))
    (hsh : ∀ l, (langs l).priorGroups = shared)
    (a : Fin Qu → ℝ) (b : ℝ) (hprior : ∀ l st n, (langs l).priorLlh st n = ∑ q, a q * st n q + b)
    (ar : Fin Qr → ℝ) (br : ℝ) (hroot : ∀ st n, r.priorLlh st n = ∑ q, ar q * st n q + br)
    (e : Ω → (l : Fin G) → HNoise H I O (Ns l) L P B U)
    (hlaw : ∀ l n k i j, μ.map (fun ω => ((e ω l).unit n k, (e ω l).lang i, (e ω l).weights j,
      (e ω l).bias j)) = (stdNoise I).prod ((stdNoise H).prod ((stdNoise _).prod (stdNoise _))))
    (huniv : ∀ l u, μ.map (fun ω => (e ω l).univ u) = stdNoise H)
    (hpdf : ∀ l n q, Integrable (fun x => (langs l).pdfvec (unitVector x.2.2.1 x.2.2.2 x.2.1 x.1) q)
      (hierLaw r (langs l) n))
    (hst : ∀ l n q, Integrable (fun h => (langs l).priorStats h q)
      (normalLaw ((langs l).posts n).mean ((langs l).posts n).diagCov))
    (hrst : ∀ l q, Integrable (fun h => r.priorStats h q)
      (normalLaw (langs l).langPost.mean (langs l).langPost.diagCov)) :
    ∃ val : Ω → ℝ, (∀ ω, ∃ v, hierElbo kl r langs (e ω) = .ok v ∧ v.value = val ω) ∧
      ∫ ω, val ω ∂μ =
        ∑ l, (∑ n, ((∑ q, (∫ x, (langs l).pdfvec (unitVector x.2.2.1 x.2.2.2 x.2.1 x.1) q
              ∂hierLaw r (langs l) n) * (langs l).stats n q) -
            ∫ h, (logDensity ((langs l).posts n).mean ((langs l).posts n).diagCov h -
                (∑ q, a q * (langs l).priorStats h q + b))
              ∂normalLaw ((langs l).posts n).mean ((langs l).posts n).diagCov) -
          ∫ z, (logDensity (langs l).langPost.mean (langs l).langPost.diagCov z -
              (∑ q, ar q * r.priorStats z q + br))
            ∂normalLaw (langs l).langPost.mean (langs l).langPost.diagCov) -
        ((r.priorGroups.flatten.map kl).sum + kl r.weightsId + kl r.biasId +
          (G : ℝ) * (shared.flatten.map kl).sum) := by
  refine ⟨fun ω => hierBound kl r shared langs (e ω) - ((G : ℝ) - 1) * (shared.flatten.map kl).sum,
    fun ω => ?_, ?_⟩
  · obtain ⟨v, h1, h2, -⟩ := C105_objective hG hN hL hU kl r shared langs hsh (e ω)
    exact ⟨v, h1, h2⟩
  have hu := fun l n => unitTerm_unbiased μ hL hP hB r (langs l) a b (hprior l) (fun ω => e ω l) n
    (hlaw l n) (hpdf l n) (hst l n)
  have hl := fun l => divergence_unbiased μ hU (langs l).langPost.mean (langs l).langPost.diagCov
    (mldc_pos _) r.priorStats ar br (fun u ω => (e ω l).univ u) (huniv l) (hrst l)
  have hlt : ∀ l ω, langTerm r (langs l) (e ω l) =
      DistSpec.average (fun u => logDensity (langs l).langPost.mean (langs l).langPost.diagCov
        (drawn (langs l).langPost.mean (langs l).langPost.diagCov ((e ω l).univ u))) -
      (∑ q, ar q * DistSpec.average (fun u => r.priorStats
        (drawn (langs l).langPost.mean (langs l).langPost.diagCov ((e ω l).univ u)) q) + br) := by
    intro l ω
    unfold langTerm
    rw [hroot]
  have i1 : ∀ l, Integrable (fun ω => ∑ n, unitTerm r (langs l) (e ω l) n) μ := fun l =>
    integrable_finsetSum _ fun n _ => (hu l n).1
  have i2 : ∀ l, Integrable (fun ω => langTerm r (langs l) (e ω l)) μ := fun l => by
    simp only [hlt]
    exact (hl l).1
  have i3 : Integrable (fun ω => ∑ l, (∑ n, unitTerm r (langs l) (e ω l) n -
      langTerm r (langs l) (e ω l))) μ :=
    integrable_finsetSum _ fun l _ => (i1 l).sub (i2 l)
  unfold hierBound
  simp only [sub_sub _ (_ + _) (_ * _)]
  have i4 : ∀ l ∈ Finset.univ, Integrable (fun ω => ∑ n, unitTerm r (langs l) (e ω l) n -
      langTerm r (langs l) (e ω l)) μ := fun l _ => (i1 l).sub (i2 l)
  rw [integral_sub i3 (integrable_const _), integral_finsetSum _ i4]
  simp only [integral_const, probReal_univ, one_smul]
  have : ∀ l, ∫ ω, (∑ n, unitTerm r (langs l) (e ω l) n - langTerm r (langs l) (e ω l)) ∂μ =
      ∑ n, ∫ ω, unitTerm r (langs l) (e ω l) n ∂μ - ∫ ω, langTerm r (langs l) (e ω l) ∂μ := by
    intro l
    rw [integral_sub (i1 l) (i2 l), integral_finsetSum _ fun n _ => (hu l n).1]
  have hmain := Finset.sum_congr (s₁ := Finset.univ) rfl fun l _ => (this l).trans
    (congrArg₂ (· - ·) (Finset.sum_congr rfl fun n _ => (hu l n).2)
      ((integral_congr_ae (Filter.Eventually.of_forall (hlt l))).trans (hl l).2))
  rw [hmain]
  rw [show ∀ x y k w b t g : ℝ, x - (k + w + b + t + (g - 1) * t) = y - (k + w + b + g * t) ↔ x = y from
    fun x y k w b t g => ⟨fun h => by linarith, fun h => by rw [h]; ring⟩]

/-- The hypotheses can be met: two languages of one unit, one sample of each kind. -/
example : ∃ (μ : Measure ((Fin 1 → ℝ) × (Fin 1 → ℝ) × (Fin (1 * (1 * 1 + 1)) → ℝ) × (Fin (1 * 1 + 1) → ℝ)))
    (e : (Fin 1 → ℝ) × (Fin 1 → ℝ) × (Fin (1 * (1 * 1 + 1)) → ℝ) × (Fin (1 * 1 + 1) → ℝ) →
      Fin 2 → HNoise 1 1 1 1 1 1 1 1), IsProbabilityMeasure μ ∧
    (∀ l, hierLang1.priorGroups = (fun _ => [[4]]) (l : Fin 2)) ∧
    (∀ st n, hierLang1.priorLlh st n = ∑ q, (fun _ => (0 : ℝ)) q * st n q + 0) ∧
    (∀ l n k i j, μ.map (fun ω => ((e ω l).unit n k, (e ω l).lang i, (e ω l).weights j,
      (e ω l).bias j)) = (stdNoise 1).prod ((stdNoise 1).prod ((stdNoise _).prod (stdNoise _)))) ∧
    (∀ l u, μ.map (fun ω => (e ω l).univ u) = stdNoise 1) ∧
    (∀ n q, Integrable (fun x => hierLang1.pdfvec (unitVector x.2.2.1 x.2.2.2 x.2.1 x.1) q)
      (hierLaw hierRoot1 hierLang1 n)) := by
  have hev : ∀ (D : ℕ) (m s : Fin D → ℝ) (i : Fin D), Integrable (fun x => x i) (normalLaw m s) := by
    intro D m s i
    exact integrable_comp_eval (μ := fun i => gaussianReal (m i) (s i).toNNReal) (i := i)
      (f := fun y => y) ((memLp_id_gaussianReal 1).integrable le_rfl)
  refine ⟨(stdNoise 1).prod ((stdNoise 1).prod ((stdNoise _).prod (stdNoise _))),
    fun ω _ => ⟨fun _ _ => ω.1, fun _ => ω.2.1, fun _ => ω.2.2.1, fun _ => ω.2.2.2, fun _ => ω.1⟩,
    inferInstance, fun _ => rfl, ?_, ?_, ?_, ?_⟩
  · intro st n
    simp [hierLang1]
  · intro l n k i j
    exact Measure.map_id
  · intro l u
    exact Measure.fst_prod
  · intro n q
    have hq : q = 0 := Subsingleton.elim _ _
    subst hq
    have e : (fun x : (Fin 1 → ℝ) × (Fin 1 → ℝ) × (Fin (1 * (1 * 1 + 1)) → ℝ) ×
          (Fin (1 * 1 + 1) → ℝ) => hierLang1.pdfvec (unitVector x.2.2.1 x.2.2.2 x.2.1 x.1) 0) =
        fun x => x.1 0 * (x.2.1 0 * x.2.2.1 0 + x.2.2.2 0) + (x.2.1 0 * x.2.2.1 1 + x.2.2.2 1) := by
      funext x
      simp [hierLang1, unitVector, superVector, genWeights, genBias, matrixOf, Matrix.mulVec,
        dotProduct, mul_comm]
    rw [e]
    unfold hierLaw
    have k1 : ∀ i, Integrable (fun x : (Fin 1 → ℝ) × (Fin (1 * (1 * 1 + 1)) → ℝ) ×
          (Fin (1 * 1 + 1) → ℝ) => x.1 0 * x.2.1 i)
        ((normalLaw hierLang1.langPost.mean hierLang1.langPost.diagCov).prod
        ((normalLaw hierRoot1.transform.postW.mean hierRoot1.transform.postW.diagCov).prod
        (normalLaw hierRoot1.transform.postB.mean hierRoot1.transform.postB.diagCov))) := fun i =>
      (hev _ _ _ 0).mul_prod ((hev _ _ _ i).comp_fst _)
    have k2 : ∀ i, Integrable (fun x : (Fin 1 → ℝ) × (Fin (1 * (1 * 1 + 1)) → ℝ) ×
          (Fin (1 * 1 + 1) → ℝ) => x.2.2 i)
        ((normalLaw hierLang1.langPost.mean hierLang1.langPost.diagCov).prod
        ((normalLaw hierRoot1.transform.postW.mean hierRoot1.transform.postW.diagCov).prod
        (normalLaw hierRoot1.transform.postB.mean hierRoot1.transform.postB.diagCov))) := fun i =>
      ((hev _ _ _ i).comp_snd _).comp_snd _
    exact ((hev _ _ _ 0).mul_prod ((k1 0).add (k2 0))).add (((k1 1).add (k2 1)).comp_snd _)

/-! ## C106: training the priors -/

section training

/-- The groups of the optimizer are one copy of the parameter of the prior over units per language. -/
theorem hierGroups_eq {Ns : Fin G → ℕ} (conj : ℕ → Bool)
    (langs : (l : Fin G) → HLang V H I O Qu Q (Ns l)) (u : ℕ) (hu : conj u = true)
    (hsh : ∀ l, (langs l).priorGroups = [[u]]) :
    hierGroups false conj langs = List.replicate G [u] := by
  have h1 : ∀ l : Fin G, ((langs l).groups.map fun grp => grp.filter conj).filter
      (fun grp => 0 < grp.length) = [[u]] := by
    intro l
    unfold HLang.groups
    rw [hsh, List.append_nil]
    simp [hu]
  unfold hierGroups
  simp only [h1, Bool.false_eq_true, if_false]
  have : ∀ xs : List (Fin G), xs.flatMap (fun _ => [[u]]) = List.replicate xs.length [u] := by
    intro xs
    induction xs with
    | nil => rfl
    | cons x xs ih => rw [List.flatMap_cons, ih]; rfl
  rw [this, List.length_finRange]

variable [AddCommGroup V] [Module ℝ V]

omit [Module ℝ V] in
theorem initStep_hier (u : ℕ) (n : ℕ) (h : Heap V) (p : ℕ) :
    (((List.replicate n [u]).foldl (fun h group => group.foldl
      (fun h p => h.set p (h p).zeroStats) h) h) p).post = (h p).post ∧
    (((List.replicate n [u]).foldl (fun h group => group.foldl
      (fun h p => h.set p (h p).zeroStats) h) h) p).prior = (h p).prior ∧
    (0 < n → (((List.replicate n [u]).foldl (fun h group => group.foldl
      (fun h p => h.set p (h p).zeroStats) h) h) u).stats = 0) := by
  induction n generalizing h with
  | zero => exact ⟨rfl, rfl, fun h0 => absurd h0 (lt_irrefl 0)⟩
  | succ n ih =>
    rw [List.replicate_succ, List.foldl_cons]
    obtain ⟨h1, h2, h3⟩ := ih (List.foldl (fun h p => h.set p (h p).zeroStats) h [u])
    have hp : ∀ p, ((List.foldl (fun h p => h.set p (h p).zeroStats) h [u]) p) =
        if p = u then (h u).zeroStats else h p := fun p => by
      simp only [List.foldl_cons, List.foldl_nil, Heap.set]
    refine ⟨?_, ?_, ?_⟩
    · rw [h1, hp]; split
      · rename_i he; rw [he]; rfl
      · rfl
    · rw [h2, hp]; split
      · rename_i he; rw [he]; rfl
      · rfl
    · intro _
      rcases Nat.eq_zero_or_pos n with h0 | h0
      · subst h0
        rw [List.replicate_zero, List.foldl_nil, hp, if_pos rfl]
        rfl
      · exact h3 h0

/-- One epoch with an objective that holds no statistics for `u`, the only parameter updated. -/
theorem hier_epoch (hG : 0 < G) (u c : ℕ) (lrate : ℝ) (obj : Heap V → Elbo ℝ V) (h : Heap V)
    (hobj : ∀ h, (obj h).isTensor = true ∧ (obj h).mb ≠ 0 ∧ (u ∉ (obj h).params ∨ (obj h).acc u = none)) :
    ∃ h', trainIter obj (⟨List.replicate G [u], lrate, c⟩, h) =
        .ok (⟨List.replicate G [u], lrate, c + 1⟩, h') ∧
      (h' u).prior = (h u).prior ∧
      (h' u).post = (h u).post + lrate • ((h u).prior - (h u).post) ∧
      ∀ p, p ≠ u → (h' p).post = (h p).post ∧ (h' p).prior = (h p).prior := by
  have hi := initStep_hier u G h
  set h0 := CjgOptim.initStep (⟨List.replicate G [u], lrate, c⟩ : CjgOptim ℝ) h with hh0
  have hi' : ∀ p, (h0 p).post = (h p).post ∧ (h0 p).prior = (h p).prior ∧ (0 < G → (h0 u).stats = 0) :=
    hi
  obtain ⟨ht, hm, hacc⟩ := hobj h0
  have hb : ∃ h1, (obj h0).backward (F := ℝ) true h0 = .ok h1 ∧ h1 u = h0 u ∧
      ∀ p, (h1 p).post = (h0 p).post ∧ (h1 p).prior = (h0 p).prior := by
    unfold Elbo.backward
    rw [ht]
    simp only [Bool.not_true, Bool.and_false, Bool.false_eq_true, if_false, hm]
    refine ⟨_, rfl, ?_, ?_⟩
    · rcases hacc with ha | ha
      · simp [ha]
      · split
        · rw [ha]
        · rfl
    · intro p
      split
      · split
        · exact ⟨rfl, rfl⟩
        · exact ⟨rfl, rfl⟩
      · exact ⟨rfl, rfl⟩
  obtain ⟨h1, hb1, hbu, hbp⟩ := hb
  have hlen : c % G < G := Nat.mod_lt _ hG
  have hstep : (⟨List.replicate G [u], lrate, c⟩ : CjgOptim ℝ).step h1 =
      (⟨List.replicate G [u], lrate, c + 1⟩, h1.set u ((h1 u).update lrate)) := by
    unfold CjgOptim.step
    simp only [List.length_replicate, gt_iff_lt, hG, if_true]
    rw [List.getD_eq_getElem _ _ (by simpa using hlen), List.getElem_replicate]
    rfl
  refine ⟨h1.set u ((h1 u).update lrate), ?_, ?_, ?_, ?_⟩
  · unfold trainIter
    dsimp only
    rw [← hh0, hb1]
    dsimp only
    rw [hstep]
  · simp only [Heap.set, if_true, Param.update, hbu, (hi' u).2.1]
  · simp only [Heap.set, if_true, Param.update, hbu, (hi' u).1, (hi' u).2.1, (hi' u).2.2 hG, add_zero]
  · intro p hp
    simp only [Heap.set, hp, if_false, (hbp p).1, (hbp p).2, (hi' p).1, (hi' p).2.1, and_self]

/-- C106, violated: in the training of a hierarchical model, for any data, any noise and any number of
epochs, the posterior of the prior over units decays towards its prior (it is its prior after one epoch
with learning rate one), and the posterior of the prior over languages does not change: neither depends
on the latent vectors. -/
theorem C106_hierarchical_priors_not_trained {Ns : Fin G → ℕ} (hG : 0 < G) (hN : ∀ l, 0 < Ns l)
    (hL : 0 < L) (hU : 0 < U) (u z : ℕ) (huz : u ≠ z) (conj : ℕ → Bool) (hu : conj u = true)
    (kl : ℕ → Heap V → ℕ → ℝ) (r : ℕ → Heap V → HRoot V H I O Qr)
    (hr : ∀ i h, (r i h).priorGroups = [[z]] ∧ ∀ st, (r i h).priorAcc st u = none)
    (langs : ℕ → Heap V → (l : Fin G) → HLang V H I O Qu Q (Ns l))
    (hl : ∀ i h l, (langs i h l).priorGroups = [[u]])
    (e : ℕ → Heap V → (l : Fin G) → HNoise H I O (Ns l) L P B U)
    (obj : ℕ → Heap V → Elbo ℝ V)
    (hobj : ∀ i h, hierElbo (kl i h) (r i h) (langs i h) (e i h) = .ok (obj i h))
    (lrate : ℝ) (i0 : ℕ) (h0 : Heap V) (n i c : ℕ) (h : Heap V) :
    ∃ s, trainRun obj i n (⟨hierGroups false conj (langs i0 h0), lrate, c⟩, h) = .ok s ∧
      (s.2 u).post = (h u).prior + (1 - lrate) ^ n • ((h u).post - (h u).prior) ∧
      (s.2 u).prior = (h u).prior ∧ (s.2 z).post = (h z).post := by
  rw [hierGroups_eq conj (langs i0 h0) u hu (hl i0 h0)]
  have ho : ∀ i h, (obj i h).isTensor = true ∧ (obj i h).mb ≠ 0 ∧
      (u ∉ (obj i h).params ∨ (obj i h).acc u = none) := by
    intro i h
    obtain ⟨v, h1, -, -, h4, h5, -, h7⟩ := C105_objective hG hN hL hU (kl i h) (r i h) [[u]] (langs i h)
      (hl i h) (e i h)
    rw [hobj i h] at h1
    cases h1
    refine ⟨h7, by rw [h5]; exact hG.ne', Or.inr ?_⟩
    rw [h4]
    exact (hr i h).2 _
  induction n generalizing i c h with
  | zero => exact ⟨_, rfl, by simp, rfl, rfl⟩
  | succ n ih =>
    obtain ⟨h', e1, e2, e3, e4⟩ := hier_epoch hG u c lrate (obj i) h (ho i)
    obtain ⟨s, s1, s2, s3, s4⟩ := ih (i + 1) (c + 1) h'
    refine ⟨s, ?_, ?_, s3.trans e2, s4.trans (e4 z huz.symm).1⟩
    · unfold trainRun
      rw [e1]
      exact s1
    · rw [s2, e2, e3, pow_succ, mul_smul]
      congr 2
      module

/-- C106, the option `--skip-root-subspace` leaves every conjugate parameter as it is. -/
theorem C106_skip_root {Ns : Fin G → ℕ} (conj : ℕ → Bool)
    (langs : (l : Fin G) → HLang V H I O Qu Q (Ns l)) (lrate : ℝ) (c : ℕ) (h : Heap V) :
    ((⟨hierGroups true conj langs, lrate, c⟩ : CjgOptim ℝ).step h).2 = h := by
  unfold hierGroups CjgOptim.step
  simp [Nat.mod_one]

/-- C106, what holds, the training of a (flat) subspace model whose latent prior is a normal model with
parameter `u`: after an epoch with learning rate one, the posterior of the latent prior is its prior plus
the statistics of the latent vectors, averaged over the samples and summed over the units; with
`--posteriors` nothing changes. The objective subtracts the divergence of every global parameter once. -/
theorem C106_flat_prior {R Qp : ℕ} (hN : 0 < N) (_hL : 0 < L) (kl : ℕ → ℝ) (g : GSM.Model I R Qp Q N)
    (u w b : ℕ) (conj : ℕ → Bool) (hu : conj u = true) (hw : conj w = false) (hb : conj b = false)
    (posts : Fin N → MLDC I) (stats : Fin N → Fin Q → ℝ) (eps : Fin N → Fin L → Fin I → ℝ)
    (epsW : Fin P → Fin (I * R) → ℝ) (epsB : Fin P → Fin R → ℝ) (h : Heap (Fin Qp → ℝ)) :
    ∃ v s, gsmElbo kl g [[u]] w b (normalAcc u) posts stats eps epsW epsB = .ok v ∧
      v.value = ∑ n, g.expLlh posts stats eps epsW epsB n - (kl u + kl w + kl b) ∧
      trainIter (fun _ => v) (⟨gsmGroups false conj [[u]] w b, (1 : ℝ), 0⟩, h) = .ok s ∧
      (∀ q, (s.2 u).post q = (h u).prior q + ∑ n, average fun l =>
        g.priorStats (drawn (posts n).mean (posts n).diagCov (eps n l)) q) ∧
      (∀ p, p ≠ u → (s.2 p).post = (h p).post) ∧
      gsmGroups true conj [[u]] w b = [[]] := by
  have hN' : (N : ℝ) ≠ 0 := by exact_mod_cast hN.ne'
  have hg : gsmGroups false conj [[u]] w b = [[u]] := by
    simp [gsmGroups, hu, hw, hb]
  obtain ⟨v, hv, hval, hten, hmb, hds, hacc, hpar⟩ :
      ∃ v, gsmElbo kl g [[u]] w b (normalAcc u) posts stats eps epsW epsB = .ok v ∧
        v.value = ∑ n, g.expLlh posts stats eps epsW epsB n - (kl u + kl w + kl b) ∧
        v.isTensor = true ∧ v.mb = N ∧ v.datasize = N ∧
        v.acc = normalAcc u (lpStats g.priorStats fun n l => (posts n).sample (eps n l)) ∧
        u ∈ v.params := by
    unfold gsmElbo evidenceLowerBound
    simp only [List.length_finRange, hN.ne', if_false]
    refine ⟨_, rfl, ?_, rfl, rfl, ?_, rfl, ?_⟩
    · simp [hN', klOfGroups]
      ring
    · simp
    · simp
  have hb : ∃ h1, v.backward (F := ℝ) true (h.set u (h u).zeroStats) = .ok h1 ∧
      (h1 u).prior = (h u).prior ∧ (h1 u).post = (h u).post ∧
      (∀ q, (h1 u).stats q = ∑ n, lpStats g.priorStats (fun n l => (posts n).sample (eps n l)) n q) ∧
      ∀ p, (h1 p).post = (h p).post := by
    unfold Elbo.backward
    rw [hten]
    simp only [Bool.not_true, Bool.and_false, Bool.false_eq_true, if_false, hmb, hN.ne', hacc, hds]
    refine ⟨_, rfl, ?_, ?_, ?_, ?_⟩
    · simp [hpar, normalAcc, Heap.set, Param.zeroStats, Param.storeStats]
    · simp [hpar, normalAcc, Heap.set, Param.zeroStats, Param.storeStats]
    · intro q
      simp [hpar, normalAcc, Heap.set, Param.zeroStats, Param.storeStats, hN']
    · intro p
      by_cases hp : p = u
      · subst hp
        simp [hpar, normalAcc, Heap.set, Param.zeroStats, Param.storeStats]
      · simp [normalAcc, Heap.set, hp]
  obtain ⟨h1, hb1, hb2, hb3, hb4, hb5⟩ := hb
  have hstep : trainIter (fun _ => v) (⟨gsmGroups false conj [[u]] w b, (1 : ℝ), 0⟩, h) =
      .ok (⟨[[u]], 1, 1⟩, h1.set u ((h1 u).update (1 : ℝ))) := by
    rw [hg]
    unfold trainIter
    have : CjgOptim.initStep (⟨[[u]], 1, 0⟩ : CjgOptim ℝ) h = h.set u (h u).zeroStats := rfl
    simp only [this, hb1]
    simp [CjgOptim.step]
  refine ⟨v, _, hv, hval, hstep, ?_, ?_, rfl⟩
  · intro q
    have : (((h1 u).update (1 : ℝ)).post) q = (h1 u).prior q + (h1 u).stats q := by
      simp only [Param.update, one_smul, Pi.add_apply, Pi.sub_apply]
      ring
    simp only [Heap.set, if_true, this, hb2, hb4]
    simp only [lpStats_eq, mldc_sample]
  · intro p hp
    simp only [Heap.set, hp, if_false, hb5]

/-- A subspace model with two units, one noise value and prior `10`: the posterior of the latent prior is
`10` plus the two latent means (both noises are zero), `3` and `4`. -/
example : ∃ v s, gsmElbo (fun _ => 2)
      (⟨⟨⟨fun _ => 0, fun _ => 0⟩, ⟨fun _ => 0, fun _ => 0⟩, ⟨fun _ => 0, fun _ => 0⟩,
        ⟨fun _ => 0, fun _ => 0⟩⟩, fun h _ => h 0, fun _ _ => 0,
        fun r _ => r 0⟩ : GSM.Model 1 1 1 1 2) [[7]] 8 9 (normalAcc 7)
      (fun n => ⟨fun _ => if n = 0 then 3 else 4, fun _ => 0⟩) (fun _ _ => 0)
      (fun _ (_ : Fin 1) _ => 0) (fun (_ : Fin 1) _ => 0) (fun _ _ => 0) = .ok v ∧
    trainIter (fun _ => v) (⟨gsmGroups false (fun k => k == 7) [[7]] 8 9, (1 : ℝ), 0⟩,
      fun _ => ⟨fun _ => 10, fun _ => 0, fun _ => 0⟩) = .ok s ∧ (s.2 7).post 0 = 17 := by
  obtain ⟨v, s, h1, -, h3, h4, -⟩ := C106_flat_prior (P := 1) (L := 1) (by norm_num) (by norm_num)
    (fun _ => 2) (⟨⟨⟨fun _ => 0, fun _ => 0⟩, ⟨fun _ => 0, fun _ => 0⟩, ⟨fun _ => 0, fun _ => 0⟩,
        ⟨fun _ => 0, fun _ => 0⟩⟩, fun h _ => h 0, fun _ _ => 0,
      fun r _ => r 0⟩ : GSM.Model 1 1 1 1 2) 7 8 9 (fun k => k == 7) rfl rfl rfl
    (fun n => ⟨fun _ => if n = 0 then 3 else 4, fun _ => 0⟩) (fun _ _ => 0)
    (fun _ _ _ => 0) (fun _ _ => 0) (fun _ _ => 0) (fun _ => ⟨fun _ => 10, fun _ => 0, fun _ => 0⟩)
  refine ⟨v, s, h1, h3, ?_⟩
  rw [h4]
  simp [drawn, DistSpec.average, Fin.sum_univ_two]
  norm_num

end training

/-- C106, in the example: two languages, one epoch, learning rate one: the posterior of the prior over
units (parameter 4) is its prior, `10`, although it was `15`, whatever the latent vectors. -/
example : ∃ obj s, hierElbo (fun _ => 0) hierRoot1 (fun _ : Fin 2 => hierLang1) (fun _ => hierNoise1) =
      .ok obj ∧
    trainRun (fun _ _ => obj) 0 1 (⟨hierGroups false (fun k => k == 4) (fun _ : Fin 2 => hierLang1), 1, 0⟩,
      fun _ => ⟨10, 15, 3⟩) = .ok s ∧ (s.2 4).post = (10 : ℝ) := by
  obtain ⟨v, h1, -⟩ := C105_objective (by norm_num) (fun _ => by norm_num) (by norm_num)
    (by norm_num) (fun _ => 0) hierRoot1 [[4]] (fun _ : Fin 2 => hierLang1)
    (fun _ => rfl) (fun _ => hierNoise1)
  obtain ⟨s, h2, h3, -⟩ := C106_hierarchical_priors_not_trained (V := ℝ) (G := 2) (by norm_num)
    (fun _ => by norm_num) (by norm_num) (by norm_num) 4 3 (by norm_num) (fun k => k == 4) rfl
    (fun _ _ _ => 0) (fun _ _ => hierRoot1) (fun _ _ => ⟨rfl, fun _ => rfl⟩)
    (fun _ _ _ => hierLang1) (fun _ _ _ => rfl) (fun _ _ _ => hierNoise1) (fun _ _ => v)
    (fun _ _ => h1) 1 0 (fun _ => ⟨0, 0, 0⟩) 1 0 0 (fun _ => ⟨10, 15, 3⟩)
  exact ⟨v, s, h1, h2, by rw [h3]; norm_num⟩

end Verif.Props
