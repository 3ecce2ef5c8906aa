import Mathlib.LinearAlgebra.Matrix.Defs
import Mathlib.Data.Real.Basic

/-!
# Mean and covariance of a sample, and their compromise with a prior
-/

namespace Verif.FitSpec

variable {D : ℕ}

/-- The mean of the data. -/
noncomputable def sampleMean (data : List (Fin D → ℝ)) (i : Fin D) : ℝ := (data.map fun x => x i).sum / data.length

/-- The covariance of the data (divided by their number). -/
noncomputable def sampleCov (data : List (Fin D → ℝ)) : Matrix (Fin D) (Fin D) ℝ :=
  Matrix.of fun i j =>
    (data.map fun x => (x i - sampleMean data i) * (x j - sampleMean data j)).sum / data.length

/-- The mean of `s` observations of mean `m0` and `n` observations of mean `m`. -/
noncomputable def pooledMean (s n : ℝ) (m0 m : Fin D → ℝ) (i : Fin D) : ℝ := (s * m0 i + n * m i) / (s + n)

/-- The scatter between two groups of `s` and `n` observations, of means `m0` and `m`. -/
noncomputable def between (s n : ℝ) (m0 m : Fin D → ℝ) : Matrix (Fin D) (Fin D) ℝ :=
  Matrix.of fun i j => s * n / (s + n) * ((m i - m0 i) * (m j - m0 j))

/-- The number of observations the data stand for: the size of the data set, the number of the data when it is not given. -/
def effSize (data : List (Fin D → ℝ)) (datasize : ℤ) : ℝ :=
  ((if datasize ≤ 0 then (data.length : ℤ) else datasize : ℤ) : ℝ)

end Verif.FitSpec
