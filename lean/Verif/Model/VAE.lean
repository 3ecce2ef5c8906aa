import Verif.Model.NormalDist

/-!
# Model of `beer/models/vae.py`

`N` frames of dimension `X`, latent dimension `D`, `S` samples per frame.  The encoder and the decoder
with their output layers are arbitrary functions of one frame (`torch.nn` modules applied row by
row).  The random draws are an argument.  The tensors are functions on `Fin`; `view(-1, ·)` followed
by the inverse `reshape` is the identity.  Broadcasting is explicit.  The prior is any model: its
statistics of one latent vector, and its expected log-likelihood of a batch of statistics.
-/

namespace Verif.Dists

open Real

/-- The networks and the prior of a `VAE`, lines 30-38. -/
structure VAE (D X Q N : ℕ) where
  encMean : (Fin X → ℝ) → Fin D → ℝ
  encLogVar : (Fin X → ℝ) → Fin D → ℝ
  decMean : (Fin D → ℝ) → Fin X → ℝ
  decLogVar : (Fin D → ℝ) → Fin X → ℝ
  priorStats : (Fin D → ℝ) → Fin Q → ℝ
  priorLlh : (Fin N → Fin Q → ℝ) → Fin N → ℝ

variable {D X Q N S : ℕ}

/-- `MeanLogDiagCov`, lines 15-25. -/
noncomputable def meanLogDiagCov {D : ℕ} (mean logv : Fin D → ℝ) : ND ℝ :=
  ⟨List.ofFn mean, List.ofFn fun d => 1 / 100000 + exp (logv d)⟩

/-- `posteriors`, lines 40-45, one frame. -/
noncomputable def VAE.post (v : VAE D X Q N) (x : Fin X → ℝ) : ND ℝ :=
  meanLogDiagCov (v.encMean x) (v.encLogVar x)

/-- `pdfs`, lines 47-52, one latent vector. -/
noncomputable def VAE.pdf (v : VAE D X Q N) (z : Fin D → ℝ) : ND ℝ :=
  meanLogDiagCov (v.decMean z) (v.decLogVar z)

/-- `posts.sample(nsamples)`, line 70. -/
noncomputable def VAE.sample (v : VAE D X Q N) (x : Fin X → ℝ) (eps : Fin D → ℝ) : Fin D → ℝ :=
  fun d => (ndSample (v.post x) (List.ofFn eps)).getD d 0

/-- `mean(dim=1)`. -/
noncomputable def meanOver (f : Fin S → ℝ) : ℝ := (∑ s, f s) / (S : ℝ)

/-- `ent`, lines 71-72: the statistics are averaged over the samples, then evaluated. -/
noncomputable def VAE.ent (v : VAE D X Q N) (data : Fin N → Fin X → ℝ)
    (eps : Fin N → Fin S → Fin D → ℝ) (i : Fin N) : ℝ :=
  -ndPdfRow D (v.post (data i)) (List.ofFn fun k : Fin (D + D) =>
    meanOver fun s => (ndStats (List.ofFn (v.sample (data i) (eps i s)))).getD k 0)

/-- `cache['prior_stats']`, lines 73-75. -/
noncomputable def VAE.sStats (v : VAE D X Q N) (data : Fin N → Fin X → ℝ)
    (eps : Fin N → Fin S → Fin D → ℝ) (i : Fin N) (q : Fin Q) : ℝ :=
  meanOver fun s => v.priorStats (v.sample (data i) (eps i s)) q

/-- `xent` and `local_kl_div`, lines 76-77: one element per frame. -/
noncomputable def VAE.localKl (v : VAE D X Q N) (data : Fin N → Fin X → ℝ)
    (eps : Fin N → Fin S → Fin D → ℝ) (i : Fin N) : ℝ :=
  -v.priorLlh (v.sStats data eps) i - v.ent data eps i

/-- `llh`, lines 81-84: after `reshape(len(data), nsamples, -1).mean(dim=1)` it has shape
`(len(data), 1)`. -/
noncomputable def VAE.llh (v : VAE D X Q N) (data : Fin N → Fin X → ℝ)
    (eps : Fin N → Fin S → Fin D → ℝ) (i : Fin N) (_ : Fin 1) : ℝ :=
  meanOver fun s => ndPdfRow X (v.pdf (v.sample (data i) (eps i s))) (ndStats (List.ofFn (data i)))

/-- `expected_log_likelihood`, lines 63-86: shape `(N, 1)` minus shape `(N,)` broadcasts to
`(N, N)`. -/
noncomputable def VAE.expLlh (v : VAE D X Q N) (llhWeight klWeight : ℝ) (data : Fin N → Fin X → ℝ)
    (eps : Fin N → Fin S → Fin D → ℝ) : Fin N → Fin N → ℝ :=
  fun i j => llhWeight * v.llh data eps i 0 - klWeight * v.localKl data eps j

/-- `evidence_lower_bound` of a batch, `inference/objectives.py` 177-184, with the divergence `kl` of
the global parameters.  An empty batch divides by zero at line 180. -/
noncomputable def VAE.elbo (v : VAE D X Q N) (datasize kl llhWeight klWeight : ℝ)
    (data : Fin N → Fin X → ℝ) (eps : Fin N → Fin S → Fin D → ℝ) : Except Err ℝ :=
  let datasize := if datasize ≤ 0 then (N : ℝ) else datasize
  if N = 0 then .error .zeroDivision
  else .ok (datasize / N * (∑ i, ∑ j, v.expLlh llhWeight klWeight data eps i j) - kl)

end Verif.Dists
