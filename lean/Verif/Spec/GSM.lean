import Verif.Model.GSM
import Verif.Spec.Expect
import Verif.Spec.VAE

/-!
# Specification vocabulary for the subspace models
-/

namespace Verif.GSMSpec

open Real MeasureTheory ProbabilityTheory Verif.DistSpec

/-- The vector drawn from independent normals with means `m` and variances `s` for the noise `e`. -/
noncomputable def drawn {D : ℕ} (m s e : Fin D → ℝ) : Fin D → ℝ := fun d => m d + √(s d) * e d

theorem mat_lt {I R : ℕ} (i : Fin I) (r : Fin R) : i.1 * R + r.1 < I * R :=
  calc i.1 * R + r.1 < i.1 * R + R := by have := r.2; omega
    _ = (i.1 + 1) * R := by ring
    _ ≤ I * R := Nat.mul_le_mul_right _ i.2

/-- The matrix whose rows are written one after the other in `w`. -/
def matrixOf {I R : ℕ} (w : Fin (I * R) → ℝ) : Matrix (Fin I) (Fin R) ℝ :=
  Matrix.of fun i r => w ⟨i.1 * R + r.1, mat_lt i r⟩

/-- The super-vector `Wᵀ h + b`. -/
def superVector {I R : ℕ} (W : Matrix (Fin I) (Fin R) ℝ) (b : Fin R → ℝ) (h : Fin I → ℝ) : Fin R → ℝ :=
  W.transpose.mulVec h + b

/-- Log density of `h` under independent normals. -/
noncomputable def logDensity {D : ℕ} (m s h : Fin D → ℝ) : ℝ :=
  diagLogDensity (List.ofFn m) (List.ofFn s) (List.ofFn h)

/-- Independent standard normal variables. -/
noncomputable def stdNoise (D : ℕ) : Measure (Fin D → ℝ) := normalLaw (fun _ => 0) fun _ => 1

/-- The joint law of a latent vector of model `n`, the weights and the bias. -/
noncomputable def jointLaw {I R Qp Q N : ℕ} (g : GSM.Model I R Qp Q N) (post : GSM.MLDC I) :
    Measure ((Fin I → ℝ) × (Fin (I * R) → ℝ) × (Fin R → ℝ)) :=
  (normalLaw post.mean post.diagCov).prod
    ((normalLaw g.transform.postW.mean g.transform.postW.diagCov).prod
      (normalLaw g.transform.postB.mean g.transform.postB.diagCov))

end Verif.GSMSpec
