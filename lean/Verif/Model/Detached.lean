import Verif.Model.VBTrain

/-!
# What autograd differentiates in HMMs and mixtures

`beer/models/hmm.py` 73-92, `beer/models/mixture.py` 70-93.  The responsibilities are computed from a detached copy of the
log-likelihoods: autograd differentiates the value as a function of the log-likelihoods `v` with the responsibilities of the current
ones, `v0`, held constant.  Autograd itself is not modelled: the derivative of these functions at `v = v0` stands for it.
-/

namespace Verif.VB

open Real Verif Verif.Mixture

/-- `exp_llh.sum()`, `hmm.py` 80-92, with the responsibilities of `pc_llhs.detach()`. -/
noncomputable def hmmDetached {S n : ℕ} (g : CGraph S) (v0 v : Fin (n + 1) → Fin S → ℝ) : Except Err ℝ := do
  let r ← hmmResps g v0
  .ok (∑ t, ∑ s, v t s * r t s)

/-- The same with `viterbi=True`, `hmm.py` 42-48 and 80-92: the responsibilities are the one-hot rows of the best path. -/
noncomputable def viterbiDetached {S n : ℕ} (am : Frame S → Fin S) (g : CGraph S) (v0 v : Fin (n + 1) → Fin S → ℝ) : ℝ :=
  ∑ t, ∑ s, v t s * (if s = bestPath am g (asLog v0) t then 1 else 0)

/-- `expected_log_likelihood` of a mixture, one frame, `mixture.py` 77-93: `lnorm`, the responsibilities and the local divergence
come from the detached log-likelihoods. -/
noncomputable def mixDetached {K : ℕ} (logWeights llh0 llh : Fin K → ℝ) : ℝ :=
  let w := fun k => llh0 k + logWeights k
  let lnorm := log (∑ k, exp (w k))
  let logResps := fun k => w k - lnorm
  (∑ k, llh k * exp (logResps k)) - localKl logResps logWeights

end Verif.VB
