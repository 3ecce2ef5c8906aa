import Mathlib.MeasureTheory.Constructions.Pi
import Verif.Spec.Evidence

/-!
# Specification vocabulary: the Normal-Wishart law

A Wishart matrix of scale `L Lᵀ` is drawn by Bartlett's decomposition.  The laws are Mathlib's,
independent of the model.
-/

namespace Verif.VB

open Real MeasureTheory ProbabilityTheory Verif.Dists Verif.DistSpec
open scoped ENNReal Matrix

/-- Bartlett's factor of the standard Wishart law with `v` degrees of freedom: independent entries,
row `i` is zero before the diagonal, the square root of a chi-squared variable with `v - i` degrees of
freedom on the diagonal, standard normal after. -/
noncomputable def bartlettLaw (D : ℕ) (v : ℝ) : Measure (Fin D → Fin D → ℝ) :=
  Measure.pi fun i => Measure.pi fun j =>
    if j < i then Measure.dirac 0
    else if j = i then (gammaMeasure ((v - i) / 2) (1 / 2)).map Real.sqrt
    else gaussianReal 0 1

/-- The mean and the precision matrix drawn from `B` of Bartlett's law and a standard normal vector
`z`: the precision is `Uᵀ U` with `U = B Lᵀ`, the mean is `m + U⁻¹ z / √k`. -/
noncomputable def normalWishartDraw {D : ℕ} (m : Fin D → ℝ) (k : ℝ) (L : Matrix (Fin D) (Fin D) ℝ)
    (p : (Fin D → Fin D → ℝ) × (Fin D → ℝ)) : (Fin D → ℝ) × (Fin D → Fin D → ℝ) :=
  let U := Matrix.of p.1 * Lᵀ
  (fun i => m i + (U⁻¹ *ᵥ p.2) i / √k, fun i j => (Uᵀ * U) i j)

/-- The precision is Wishart with scale matrix `L Lᵀ` and `v` degrees of freedom; given the precision,
the mean is normal with mean `m` and `k` times the precision. -/
noncomputable def normalWishartLaw {D : ℕ} (m : Fin D → ℝ) (k : ℝ) (L : Matrix (Fin D) (Fin D) ℝ)
    (v : ℝ) : Measure ((Fin D → ℝ) × (Fin D → Fin D → ℝ)) :=
  ((bartlettLaw D v).prod (Measure.pi fun _ : Fin D => gaussianReal 0 1)).map (normalWishartDraw m k L)

/-- The density of the normal law of mean `mu` and precision matrix `S`. -/
noncomputable def precisionPDF {D : ℕ} (mu : Fin D → ℝ) (S : Fin D → Fin D → ℝ) (x : Fin D → ℝ) : ℝ≥0∞ :=
  ENNReal.ofReal (√((Matrix.of S).det / (2 * π) ^ D) * exp (-(1/2) * ∑ i, ∑ j, (x i - mu i) * S i j * (x j - mu j)))

/-- Normal models with full covariance; `root` gives a factor of the scale matrix. -/
noncomputable def nwGen (D : ℕ) (root : (Σ D : ℕ, NW D) → Matrix (Fin D) (Fin D) ℝ) :
    FamGen (Fin D → ℝ) (Σ D : ℕ, NW D) where
  Θ := (Fin D → ℝ) × (Fin D → Fin D → ℝ)
  ms := inferInstance
  law p := normalWishartLaw (fun i : Fin D => if h : i.val < p.1 then p.2.mean ⟨i, h⟩ else 0) p.2.scale
    (root p) p.2.dof
  dens θ x := precisionPDF θ.1 θ.2 x

/-- `root` gives factors of the scale matrices. -/
def IsRoot (D : ℕ) (root : (Σ D : ℕ, NW D) → Matrix (Fin D) (Fin D) ℝ) : Prop :=
  ∀ p : NW D, p.W.PosDef → root ⟨D, p⟩ * (root ⟨D, p⟩)ᵀ = p.W

end Verif.VB
