import Verif.Model.VAE
import Verif.Spec.NormalDist

/-!
# Specification vocabulary for the variational auto-encoder
-/

namespace Verif.DistSpec

open Verif.Dists Real

variable {D X Q N S : ℕ}

/-- The latent vector drawn for the noise `e`: mean plus standard deviation times noise. -/
noncomputable def latent (v : VAE D X Q N) (x : Fin X → ℝ) (e : Fin D → ℝ) : Fin D → ℝ :=
  fun d => v.encMean x d + √(1 / 100000 + exp (v.encLogVar x d)) * e d

/-- Log density of `x` given the latent vector `z`. -/
noncomputable def decLogDensity (v : VAE D X Q N) (z : Fin D → ℝ) (x : Fin X → ℝ) : ℝ :=
  diagLogDensity (List.ofFn (v.decMean z)) (List.ofFn fun d => 1 / 100000 + exp (v.decLogVar z d))
    (List.ofFn x)

/-- Log density of the latent vector `z` under the variational posterior of the frame `x`. -/
noncomputable def encLogDensity (v : VAE D X Q N) (x : Fin X → ℝ) (z : Fin D → ℝ) : ℝ :=
  diagLogDensity (List.ofFn (v.encMean x)) (List.ofFn fun d => 1 / 100000 + exp (v.encLogVar x d))
    (List.ofFn z)

/-- Average over the samples. -/
noncomputable def average (f : Fin S → ℝ) : ℝ := (1 / (S : ℝ)) * ∑ s, f s

/-- Contribution of frame `i`: weighted reconstruction minus weighted divergence, both estimated with
the samples; the prior sees the averaged statistics. -/
noncomputable def frameTerm (v : VAE D X Q N) (wl wk : ℝ) (data : Fin N → Fin X → ℝ)
    (eps : Fin N → Fin S → Fin D → ℝ) (i : Fin N) : ℝ :=
  wl * average (fun s => decLogDensity v (latent v (data i) (eps i s)) (data i)) -
  wk * (average (fun s => encLogDensity v (data i) (latent v (data i) (eps i s))) -
    v.priorLlh (fun k q => average fun s => v.priorStats (latent v (data k) (eps k s)) q) i)

end Verif.DistSpec
