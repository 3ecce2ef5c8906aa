import Verif.Spec.SBTrain
import Verif.Model.SBHyper

/-!
# Specification: the evidence lower bound of the joint model of data, sticks and concentration
-/

namespace Verif.VB

open Real Verif.Dists

variable {K : ℕ}

/-- The divergence of a Gamma to another one. -/
noncomputable def concDivergence (a b a0 b0 : ℝ) : ℝ :=
  (lgamma a0 - a0 * log b0) - (lgamma a - a * log b) - (a / b * (b - b0) + (digamma a - log b) * (a0 - a))

/-- The divergence of the posterior `q` of a stick to `Beta(1, concentration)`, averaged over the posterior `Gamma(a, b)` of
the concentration: `E[ln concentration] = digamma a - ln b`, `E[concentration] = a / b`. -/
noncomputable def stickDivergence (a b : ℝ) (q : ℝ × ℝ) : ℝ :=
  -(digamma a - log b) - (lgamma q.1 + lgamma q.2 - lgamma (q.1 + q.2)) -
    ((1 - q.1) * (digamma q.1 - digamma (q.1 + q.2)) + (a / b - q.2) * (digamma q.2 - digamma (q.1 + q.2)))

/-- The evidence lower bound of the joint model: hyper-prior `Gamma(a0, b0)`, posteriors `Gamma(a, b)` of the concentration and
`post` of the sticks, in the order `σ`. -/
noncomputable def jointBound [NeZero K] (scale : ℝ) (data : List (Fin K → ℝ)) (a0 b0 : ℝ) (σ : Equiv.Perm (Fin K))
    (post : Fin K → ℝ × ℝ) (a b : ℝ) : ℝ :=
  scale * (data.map (sbExpLlh σ post)).sum - ∑ k, stickDivergence a b (post k) - concDivergence a b a0 b0

/-- A state of the model: the concentration has the hyper-prior `Gamma(a0, b0)` and the posterior `Gamma(a, b)`, the prior of
the sticks is the one of the mean concentration, the parameters are positive. -/
structure HypValid (a0 b0 a b : ℝ) (s : SBState K) : Prop where
  pos : 0 < a ∧ 0 < b
  concPrior : s.concPrior = ⟨[a0], [b0]⟩
  concPost : s.concPost = ⟨[a], [b]⟩
  prior : ∀ k, s.sbPrior k = (1, a / b)
  post : ∀ k, 0 < (s.sbPost k).1 ∧ 0 < (s.sbPost k).2

end Verif.VB
