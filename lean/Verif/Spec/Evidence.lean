import Mathlib.Probability.Distributions.Gaussian.Real
import Verif.Spec.Expect
import Verif.Spec.VBTrain

/-!
# Specification vocabulary: the evidence of the data as an integral over the prior

A set of models read as a recipe for generating data: draw the parameters from the prior, then every
data point from its density given the parameters.  The laws are Mathlib's, independent of the model.
-/

namespace Verif.VB

open Real MeasureTheory ProbabilityTheory Verif.Dists Verif.DistSpec
open scoped ENNReal

variable {X P : Type}

/-- The precision is Gamma of shape `a` and rate `b`; given the precision, the mean is normal with
mean `m` and variance `1 / (k * precision)`. -/
noncomputable def normalGammaLaw (m k a b : ℝ) : Measure (ℝ × ℝ) :=
  ((gammaMeasure a b).prod (gaussianReal 0 1)).map fun p => (m + p.2 / √(k * p.1), p.1)

/-- The same with one precision shared by `D` dimensions. -/
noncomputable def isoNormalGammaLaw {D : ℕ} (m : Fin D → ℝ) (k a b : ℝ) :
    Measure ((Fin D → ℝ) × ℝ) :=
  ((gammaMeasure a b).prod (Measure.pi fun _ : Fin D => gaussianReal 0 1)).map fun p =>
    (fun i => m i + p.2 i / √(k * p.1), p.1)

/-- A conjugate family read generatively: the law of the parameter and the density of a data point. -/
structure FamGen (X P : Type) where
  Θ : Type
  ms : MeasurableSpace Θ
  law : P → Measure Θ
  dens : Θ → X → ℝ≥0∞

attribute [instance] FamGen.ms

/-- Normal models with diagonal covariance. -/
noncomputable def ngGen (D : ℕ) : FamGen (List ℝ) (NG ℝ) where
  Θ := Fin D → ℝ × ℝ
  ms := inferInstance
  law p := Measure.pi fun i : Fin D =>
    normalGammaLaw (p.mean.getD i 0) p.scale p.shape (p.rates.getD i 0)
  dens θ x := ∏ i : Fin D, gaussianPDF (θ i).1 (1 / (θ i).2).toNNReal (x.getD i 0)

/-- Normal models with isotropic covariance. -/
noncomputable def ingGen (D : ℕ) : FamGen (List ℝ) (ING ℝ) where
  Θ := (Fin D → ℝ) × ℝ
  ms := inferInstance
  law p := isoNormalGammaLaw (fun i : Fin D => p.mean.getD i 0) p.scale p.shape p.rate
  dens θ x := ∏ i : Fin D, gaussianPDF (θ.1 i) (1 / θ.2).toNNReal (x.getD i 0)

/-- Categorical models on one-hot data. -/
noncomputable def dirGen (D : ℕ) : FamGen (List ℝ) (List ℝ) where
  Θ := Fin D → ℝ
  ms := inferInstance
  law c := dirichletLaw fun i : Fin D => c.getD i 0
  dens θ x := ENNReal.ofReal (∑ i : Fin D, x.getD i 0 * θ i)

/-- One-hot vectors. -/
def OneHot (D : ℕ) (x : List ℝ) : Prop :=
  ∃ k : Fin D, x = List.ofFn fun j : Fin D => if j = k then 1 else 0

/-- The evidence of data of one model is the exponential of the objective of any posterior plus its
divergence to the posterior reached by a step of learning rate one, whose objective is therefore the
logarithm of the evidence. -/
def ExactEvidence (fam : Family X P) (V : P → Prop) (XV : X → Prop) (G : FamGen X P) : Prop :=
  ∀ (c : CParam P) (xs : List X), ParamValid V c → (∀ x ∈ xs, XV x) →
    IsProbabilityMeasure (G.law c.prior) ∧ ∃ best g g' k,
      fam.update c (wsum fam.sdim (xs.map fun x => (1, fam.stats x))) 1 = .ok ⟨c.prior, best⟩ ∧
      paramObjective fam c (xs.map fun x => (1, x)) 1 = .ok g ∧
      paramObjective fam ⟨c.prior, best⟩ (xs.map fun x => (1, x)) 1 = .ok g' ∧
      fam.kl c.post best = .ok k ∧ 0 ≤ k ∧ g' = g + k ∧
      ∫⁻ θ, (xs.map fun x => G.dens θ x).prod ∂G.law c.prior = ENNReal.ofReal (exp g')

/-- A set of `M` models read generatively. -/
structure SetGen (St X : Type) (M : ℕ) where
  Θ : Type
  ms : MeasurableSpace Θ
  law : St → Measure Θ
  dens : Θ → Fin M → X → ℝ≥0∞

attribute [instance] SetGen.ms

/-- Independent parameters. -/
noncomputable def familyGen (G : FamGen X P) (M : ℕ) : SetGen (Fin M → CParam P) X M where
  Θ := Fin M → G.Θ
  ms := inferInstance
  law st := Measure.pi fun m => G.law (st m).prior
  dens θ m x := G.dens (θ m) x

/-- Mixtures: Dirichlet weights, component `c` of mixture `m` is the model `m * C + c`. -/
noncomputable def mixtureGen {St : Type} {M C : ℕ} (G : SetGen St X (M * C)) :
    SetGen ((Fin M → CParam (List ℝ)) × St) X M where
  Θ := (Fin M → Fin C → ℝ) × G.Θ
  ms := inferInstance
  law st := (Measure.pi fun m => dirichletLaw fun c : Fin C => (st.1 m).prior.getD c 0).prod (G.law st.2)
  dens θ m x := ∑ c, ENNReal.ofReal (θ.1 m c) * G.dens θ.2 (finProdFinEquiv (m, c)) x

/-- Shared models. -/
noncomputable def orderedGen {St : Type} {M S : ℕ} (order : Fin S → Fin M) (G : SetGen St X M) :
    SetGen St X S where
  Θ := G.Θ
  ms := inferInstance
  law := G.law
  dens θ s x := G.dens θ (order s) x

/-- Two independent sets. -/
noncomputable def jointGen {St St' : Type} {M N : ℕ} (G : SetGen St X M) (H : SetGen St' X N) :
    SetGen (St × St') X (M + N) where
  Θ := G.Θ × H.Θ
  ms := inferInstance
  law st := (G.law st.1).prod (H.law st.2)
  dens θ s x := Fin.append (fun m => G.dens θ.1 m x) (fun n => H.dens θ.2 n x) s

/-- The probability density of the data points, each explained by the given model of the set. -/
noncomputable def rowsEvidence {St : Type} {M : ℕ} (G : SetGen St X M) (st : St)
    (rows : List (X × Fin M)) : ℝ≥0∞ :=
  ∫⁻ θ, (rows.map fun r => G.dens θ r.2 r.1).prod ∂G.law st

/-- The probability density of the data under a mixture: the weights are drawn from the Dirichlet
prior, the parameters of the components from theirs. -/
noncomputable def mixEvidence {K : ℕ} {inner : SetModel X K} (G : SetGen inner.State X K)
    (st : MixState inner) (data : List X) : ℝ≥0∞ :=
  ∫⁻ θ : (Fin K → ℝ) × G.Θ, (data.map fun x => ∑ k, ENNReal.ofReal (θ.1 k) * G.dens θ.2 k x).prod
    ∂(dirichletLaw fun k : Fin K => st.weights.prior.getD k 0).prod (G.law st.comps)

/-- The probability of a state sequence in the graph. -/
noncomputable def pathProb {S n : ℕ} (g : CGraph S) (p : Fin (n + 1) → Fin S) : ℝ :=
  lexp (g.init (p 0)) * (∏ i : Fin n, lexp (g.trans (p i.castSucc) (p i.succ)))
    * lexp (g.final (p (Fin.last n)))

/-- The probability density of the utterances under an HMM: the sum over the state sequences,
integrated over the prior of the parameters of the states. -/
noncomputable def hmmEvidence {S : ℕ} {St : Type} (g : CGraph S) (G : SetGen St X S) (st : St)
    (utts : List (Utt X)) : ℝ≥0∞ :=
  ∫⁻ θ, (utts.map fun u => ∑ p : Fin (u.1 + 1) → Fin S,
    ENNReal.ofReal (pathProb g p) * ∏ t, G.dens θ (p t) (u.2 t)).prod ∂G.law st

/-- The log-likelihoods and the divergence computed by a set of models bound the evidence of its
generative reading from below; a step leaves the prior unchanged. -/
structure Bounds {M : ℕ} (S : SetModel X M) (V : S.State → Prop) (XV : X → Prop)
    (G : SetGen S.State X M) : Prop where
  prob : ∀ st, V st → IsProbabilityMeasure (G.law st)
  meas : ∀ m x, Measurable fun θ => G.dens θ m x
  bound : ∀ st rows, V st → (∀ r ∈ rows, XV r.1) →
    ENNReal.ofReal (exp ((rows.map fun r => valueOf 0 (S.llh st r.1) r.2).sum - valueOf 0 (S.kl st))) ≤
      rowsEvidence G st rows
  finite : ∀ st rows, V st → (∀ r ∈ rows, XV r.1) → rowsEvidence G st rows ≠ ⊤
  step_law : ∀ st rows scale l st', S.step st rows scale l = .ok st' → G.law st' = G.law st

end Verif.VB
