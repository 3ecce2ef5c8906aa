import Verif.Model.Likelihood

/-!
# The Gamma model

`beer/models/gamma.py` 15-88, and its evaluation by `evidence_lower_bound` (`beer/inference/objectives.py` 177-190) up to the
expected log-likelihood.  One model (1-d tensors); vectors are lists.  Tensors of different sizes are refused when the model is
created (the broadcasting of one-element tensors is not modelled there); a division by zero gives a value error instead of `inf`.
-/

namespace Verif.GammaModel

open Verif Dists

/-- `Gamma`, `models/gamma.py` 47-50: the shape, and the prior and the posterior of the rate. -/
structure Model where
  shape : List ℝ
  prior : GammaP ℝ
  post : GammaP ℝ

/-- Elementwise quotient. -/
noncomputable def vdiv (a b : List ℝ) : Except Err (List ℝ) :=
  if a.length ≠ b.length then .error .runtimeError
  else if (0 : ℝ) ∈ b then .error .valueError
  else .ok (List.zipWith (· / ·) a b)

/-- `_default_param`, `models/gamma.py` 15-20: shape and rate. -/
noncomputable def defaultParam (mean : List ℝ) (strength : ℝ) : Except Err (GammaP ℝ) :=
  match vdiv (mean.map fun _ => strength) mean with
  | .error e => .error e
  | .ok rate => .ok ⟨mean.map fun _ => 1 * strength, rate⟩

/-- `Gamma.create`, `models/gamma.py` 28-45. -/
noncomputable def create (mean shape : List ℝ) (strength : ℝ) : Except Err Model :=
  match vdiv shape mean with
  | .error e => .error e
  | .ok rate =>
    match defaultParam rate strength with
    | .error e => .error e
    | .ok p => .ok ⟨shape, p, p⟩

/-- `mean`, `models/gamma.py` 56-58: `self.rate.value()` is the expectation of the posterior (`parameters.py` 77,
`dists/gamma.py` 119-120). -/
noncomputable def Model.mean (m : Model) : Except Err (List ℝ) :=
  match vdiv m.post.shape m.post.rate with
  | .error e => .error e
  | .ok rate => vdiv m.shape rate

/-- Sizes which torch can broadcast. -/
def broadcastable (a b : ℕ) : Bool := a == b || a == 1 || b == 1

/-- `expected_log_likelihood`, `models/gamma.py` 68-80: `dim` is the number of all the natural parameters, so that `rate` is
all of them and `log_rate` is empty; `final_nparams` is not used. -/
noncomputable def Model.expLlh (m : Model) (stats : List (List ℝ)) : Except Err (List ℝ) :=
  let nparams := gamExpStats m.post
  let dim := nparams.length
  let logRate := nparams.drop dim
  if broadcastable m.shape.length logRate.length then stats.mapM fun s => gamCall nparams s
  else .error .runtimeError

/-- `accumulate`, `models/gamma.py` 82-88. -/
noncomputable def Model.accumulate (m : Model) (data : List (List ℝ)) : List ℝ :=
  wsum (2 * m.shape.length) (data.map fun x => (1, gamModelStats m.shape x (x.map Real.log)))

/-- `evidence_lower_bound(model, data)`, `objectives.py` 177-190, without the divergence: the sum of the expected
log-likelihoods and the statistics; without data the scale is a division by zero. -/
noncomputable def Model.objective (m : Model) (data : List (List ℝ)) : Except Err (ℝ × List ℝ) :=
  if data.length = 0 then .error .zeroDivision
  else
    match m.expLlh (data.map gamStats) with
    | .error e => .error e
    | .ok llhs => .ok (llhs.sum, m.accumulate data)

/-- One step of `natural_grad_update` with the statistics of the data, `parameters.py` 134-141. -/
noncomputable def Model.update (m : Model) (data : List (List ℝ)) (lrate : ℝ) : Except Err Model :=
  match natGradUpdate gamNatural gamFromNatural m.prior m.post (m.accumulate data) lrate with
  | .error e => .error e
  | .ok post => .ok { m with post := post }

end Verif.GammaModel
