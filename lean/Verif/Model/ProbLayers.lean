import Verif.Model.Nnet
import Mathlib.Analysis.SpecialFunctions.Trigonometric.Basic

/-!
# Probabilistic layers

`beer/nnet/problayers.py` 56-161, one row of the batch at a time (`N` rows of data and parameters are
treated row by row: every operation is along the last axis). The numbers drawn by `torch.randn` are an
argument. `torch.nn.Softplus` is `log (1 + exp x)` (its threshold for large values only saves overflow).
-/

namespace Verif.ProbLayers

open Verif Nnet

variable {I D : ℕ}

/-- `torch.nn.Softplus`. -/
noncomputable def softplus (x : ℝ) : ℝ := Real.log (1 + Real.exp x)

/-- `variance_nonlinearity`, lines 63-65 and 98-100: softplus unless given. -/
noncomputable def nonlinearity (given : Option (ℝ → ℝ)) : ℝ → ℝ :=
  match given with
  | none => softplus
  | some f => f

/-- `NormalDiagonalCovarianceLayer.forward`, lines 67-69: means and variances. -/
noncomputable def diagForward (mean logvar : Linear I D) (given : Option (ℝ → ℝ)) (x : Fin I → ℝ) :
    (Fin D → ℝ) × (Fin D → ℝ) :=
  (mean.forward x, fun d => nonlinearity given (logvar.forward x d))

/-- `NormalDiagonalCovarianceLayer.log_likelihood`, lines 83-87. -/
noncomputable def diagLlh (data : Fin D → ℝ) (params : (Fin D → ℝ) × (Fin D → ℝ)) : ℝ :=
  (-(1 / 2)) * (∑ d, Real.log (params.2 d) + ∑ d, (data d - params.1 d) ^ 2 / params.2 d
    + D * Real.log (2 * Real.pi))

/-- `NormalDiagonalCovarianceLayer.samples_and_llh`, lines 71-81. -/
noncomputable def diagSamples (params : (Fin D → ℝ) × (Fin D → ℝ)) (useMean : Bool) (noise : Fin D → ℝ) :
    (Fin D → ℝ) × ℝ :=
  let samples := if useMean then params.1 else fun d => params.1 d + Real.sqrt (params.2 d) * noise d
  (samples, diagLlh samples params)

/-- `NormalIsotropicCovarianceLayer.forward`, lines 102-106: one variance, repeated. -/
noncomputable def isoForward (mean : Linear I D) (logvar : Linear I 1) (given : Option (ℝ → ℝ)) (x : Fin I → ℝ) :
    (Fin D → ℝ) × (Fin D → ℝ) :=
  (mean.forward x, fun _ => nonlinearity given (logvar.forward x 0) * 1)

/-- `NormalIdentityCovarianceLayer.log_likelihood`, lines 130-134. -/
noncomputable def idLlh (data means : Fin D → ℝ) : ℝ :=
  -(1 / 2) * (∑ d, (data d - means d) ^ 2 + D * Real.log (2 * Real.pi))

/-- `NormalIdentityCovarianceLayer.samples_and_llh`, lines 119-128. -/
noncomputable def idSamples (means : Fin D → ℝ) (useMean : Bool) (noise : Fin D → ℝ) : (Fin D → ℝ) × ℝ :=
  let samples := if useMean then means else fun d => means d + noise d
  (samples, idLlh samples means)

/-- `BernoulliLayer.forward`, lines 145-146. -/
noncomputable def bernForward (mean : Linear I D) (x : Fin I → ℝ) : Fin D → ℝ := fun d => sigmoid (mean.forward x d)

/-- `BernoulliLayer.samples_and_llh`, lines 148-154. -/
def bernSamples (_means : Fin D → ℝ) (_useMean : Bool) (_noise : Fin D → ℝ) : Except Err ((Fin D → ℝ) × ℝ) :=
  .error .notImplemented

/-- `BernoulliLayer.log_likelihood`, lines 156-161. -/
noncomputable def bernLlh (data means : Fin D → ℝ) : ℝ :=
  ∑ d, (data d * Real.log (1e-6 + means d) + (1 - data d) * Real.log (1e-6 + 1 - means d))

end Verif.ProbLayers
