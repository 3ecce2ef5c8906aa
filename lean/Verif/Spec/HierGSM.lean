import Verif.Model.HierGSM
import Verif.Spec.GSM

/-!
# Specification vocabulary for the hierarchical subspace models
-/

namespace Verif.GSMSpec

open Real MeasureTheory ProbabilityTheory Verif.DistSpec Verif.GSM

theorem gen_lt {I O : ℕ} (i : Fin I) (o : Fin O) : i.1 * O + o.1 < I * O + O := by
  have := mat_lt i o
  omega

/-- The weights written in a super-vector of the root: a matrix, row by row. -/
def genWeights {I O : ℕ} (v : Fin (I * O + O) → ℝ) : Matrix (Fin I) (Fin O) ℝ :=
  Matrix.of fun i o => v ⟨i.1 * O + o.1, gen_lt i o⟩

/-- The bias written in a super-vector of the root, after the weights. -/
def genBias {I O : ℕ} (v : Fin (I * O + O) → ℝ) : Fin O → ℝ :=
  fun o => v ⟨I * O + o.1, by have := o.2; omega⟩

/-- The super-vector of a unit with latent vector `h`, in a language with latent vector `z`, for root
weights `w` and root bias `b`. -/
def unitVector {H I O : ℕ} (w : Fin (H * (I * O + O)) → ℝ) (b : Fin (I * O + O) → ℝ) (z : Fin H → ℝ)
    (h : Fin I → ℝ) : Fin O → ℝ :=
  superVector (genWeights (superVector (matrixOf w) b z)) (genBias (superVector (matrixOf w) b z)) h

variable {V : Type} {H I O Qu Qr Q N L P B U : ℕ}

/-- The super-vector of unit `n` for the draw `l` of its latent vector, the draw `a` of the latent vector
of the language and the draw `b` of the root. -/
noncomputable def unitSample (r : HRoot V H I O Qr) (g : HLang V H I O Qu Q N)
    (e : HNoise H I O N L P B U) (n : Fin N) (l : Fin L) (a : Fin P) (b : Fin B) : Fin O → ℝ :=
  unitVector (drawn r.transform.postW.mean r.transform.postW.diagCov (e.weights b))
    (drawn r.transform.postB.mean r.transform.postB.diagCov (e.bias b))
    (drawn g.langPost.mean g.langPost.diagCov (e.lang a))
    (drawn (g.posts n).mean (g.posts n).diagCov (e.unit n l))

/-- Sampled objective of unit `n`: statistics against the average pdf-vector, minus the sampled divergence
of its latent posterior. -/
noncomputable def unitTerm (r : HRoot V H I O Qr) (g : HLang V H I O Qu Q N)
    (e : HNoise H I O N L P B U) (n : Fin N) : ℝ :=
  (∑ q, average (fun l => average fun a => average fun b => g.pdfvec (unitSample r g e n l a b) q) *
    g.stats n q) -
  (average (fun l => logDensity (g.posts n).mean (g.posts n).diagCov
      (drawn (g.posts n).mean (g.posts n).diagCov (e.unit n l))) -
    g.priorLlh (fun n q => average fun l =>
      g.priorStats (drawn (g.posts n).mean (g.posts n).diagCov (e.unit n l)) q) n)

/-- Sampled divergence of the latent posterior of a language. -/
noncomputable def langTerm (r : HRoot V H I O Qr) (g : HLang V H I O Qu Q N)
    (e : HNoise H I O N L P B U) : ℝ :=
  average (fun u => logDensity g.langPost.mean g.langPost.diagCov
      (drawn g.langPost.mean g.langPost.diagCov (e.univ u))) -
    r.priorLlh (fun _ q => average fun u =>
      r.priorStats (drawn g.langPost.mean g.langPost.diagCov (e.univ u)) q) 0

/-- The joint law of the latent vector of a unit, the latent vector of its language, the root weights and
the root bias. -/
noncomputable def hierLaw (r : HRoot V H I O Qr) (g : HLang V H I O Qu Q N) (n : Fin N) :
    Measure ((Fin I → ℝ) × (Fin H → ℝ) × (Fin (H * (I * O + O)) → ℝ) × (Fin (I * O + O) → ℝ)) :=
  (normalLaw (g.posts n).mean (g.posts n).diagCov).prod
    ((normalLaw g.langPost.mean g.langPost.diagCov).prod
      ((normalLaw r.transform.postW.mean r.transform.postW.diagCov).prod
        (normalLaw r.transform.postB.mean r.transform.postB.diagCov)))

end Verif.GSMSpec
