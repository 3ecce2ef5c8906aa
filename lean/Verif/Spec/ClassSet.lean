import Verif.Model.Labelled
import Verif.Spec.GSM
import Verif.Spec.VAE
import Verif.Spec.Labelled

/-!
# Specification vocabulary for mixtures over a set of subspace models
-/

namespace Verif.GSMSpec

open Real Verif.GSM Matrix Verif.DistSpec

variable {I J R Qp Qd Q N K L P : ℕ}

/-- The latent vector drawn for unit `n`. -/
noncomputable def unitDraw (posts : Fin N → MLDC I) (e : SetNoise I J R N K L P) (n : Fin N) (l : Fin L) : Fin I → ℝ :=
  drawn (posts n).mean (posts n).diagCov (e.unit n l)

/-- The latent vector drawn for the mean of class `k`. -/
noncomputable def classDraw (g : ClassSet I J R Qp Qd Q N K) (e : SetNoise I J R N K L P) (k : Fin K) (l : Fin L) :
    Fin J → ℝ := drawn (g.means k).mean (g.means k).diagCov (e.mean k l)

/-- The pdf-vector of unit `n` in class `k`: the average over all pairs of draws. -/
noncomputable def classVec (g : ClassSet I J R Qp Qd Q N K) (posts : Fin N → MLDC I) (e : SetNoise I J R N K L P)
    (n : Fin N) (k : Fin K) : Fin Q → ℝ := fun q =>
  (1 / ((L : ℝ) * P)) * ∑ l, ∑ p, g.pdfvec
    (superVector (matrixOf (drawn g.transform.postW.mean g.transform.postW.diagCov (e.weights p)))
      (drawn g.transform.postB.mean g.transform.postB.diagCov (e.bias p)) (unitDraw posts e n l) +
      (matrixOf (drawn g.discW.mean g.discW.diagCov (e.disc p)))ᵀ *ᵥ classDraw g e k l) q

/-- The averaged statistics of the latent vectors of unit `n`. -/
noncomputable def unitStats (g : ClassSet I J R Qp Qd Q N K) (posts : Fin N → MLDC I) (e : SetNoise I J R N K L P)
    (n : Fin N) (q : Fin Qp) : ℝ := average fun l => g.priorStats (unitDraw posts e n l) q

/-- The averaged statistics of the mean of class `k`. -/
noncomputable def classStats (g : ClassSet I J R Qp Qd Q N K) (e : SetNoise I J R N K L P) (k : Fin K) (q : Fin Qd) : ℝ :=
  average fun l => g.meanStats (classDraw g e k l) q

/-- The estimated divergence of the latent posterior of unit `n` to the latent prior. -/
noncomputable def unitDiv (g : ClassSet I J R Qp Qd Q N K) (posts : Fin N → MLDC I) (e : SetNoise I J R N K L P)
    (n : Fin N) : ℝ :=
  average (fun l => logDensity (posts n).mean (posts n).diagCov (unitDraw posts e n l)) -
    g.priorLlh (unitStats g posts e) n

/-- The estimated divergence of the posterior of the mean of class `k` to the prior of the means. -/
noncomputable def classDiv (g : ClassSet I J R Qp Qd Q N K) (e : SetNoise I J R N K L P) (k : Fin K) : ℝ :=
  average (fun l => logDensity (g.means k).mean (g.means k).diagCov (classDraw g e k l)) - g.meanLlh (classStats g e) k

/-- The value of unit `n` in class `k`. -/
noncomputable def pairValue (g : ClassSet I J R Qp Qd Q N K) (posts : Fin N → MLDC I) (stats : Fin N → Fin Q → ℝ)
    (e : SetNoise I J R N K L P) (n : Fin N) (k : Fin K) : ℝ :=
  classVec g posts e n k ⬝ᵥ stats n - unitDiv g posts e n

/-- The probability of class `k` for unit `n`. -/
noncomputable def classProb (g : ClassSet I J R Qp Qd Q N K) (posts : Fin N → MLDC I) (stats : Fin N → Fin Q → ℝ)
    (e : SetNoise I J R N K L P) (lw : Fin K → ℝ) (n : Fin N) (k : Fin K) : ℝ :=
  exp (lw k) * exp (pairValue g posts stats e n k) / ∑ j, exp (lw j) * exp (pairValue g posts stats e n j)

/-- The parameters are different objects. -/
def Distinct (i : SetIds) : Prop :=
  [i.cat, i.prior, i.means, i.meanPrior, i.weights, i.bias, i.disc].Nodup

/-- The divergences of all the parameters but the class means. -/
def otherKl (kl : ℕ → ℝ) (i : SetIds) : ℝ :=
  kl i.cat + kl i.prior + kl i.meanPrior + kl i.weights + kl i.bias + kl i.disc

end Verif.GSMSpec
