import Verif.Model.DistsReal
import Verif.Spec.Dists

/-!
# Specification vocabulary for the KL divergence: valid distribution objects
-/

namespace Verif.DistSpec

open Verif.Dists

/-- Parameters of a diagonal Normal: variances positive. -/
def NDValid (D : ℕ) (p : ND ℝ) : Prop :=
  p.mean.length = D ∧ p.diagCov.length = D ∧ ∀ x ∈ p.diagCov, 0 < x

/-- `p` is a distribution on a `D`-dimensional support with valid parameters. -/
def Valid (D : ℕ) : Dist → Prop
  | .dirichlet c => DirValid D c
  | .gamma p => GamValid D p
  | .normalGamma p => NGValid D p
  | .isoNormalGamma p => INGValid D p
  | .normalDiag p => NDValid D p

/-- The two objects are of the same Python class. -/
inductive SameClass : Dist → Dist → Prop
  | dirichlet (c c') : SameClass (.dirichlet c) (.dirichlet c')
  | gamma (p p') : SameClass (.gamma p) (.gamma p')
  | normalGamma (p p') : SameClass (.normalGamma p) (.normalGamma p')
  | isoNormalGamma (p p') : SameClass (.isoNormalGamma p) (.isoNormalGamma p')
  | normalDiag (p p') : SameClass (.normalDiag p) (.normalDiag p')

/-- The one-hot encoding of category `i` among `n`. -/
noncomputable def oneHot (n : ℕ) (i : Fin n) : List ℝ := List.ofFn fun j => if j = i then 1 else 0

end Verif.DistSpec
