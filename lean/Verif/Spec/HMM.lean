import Verif.Model.HMM

/-!
# Specification of HMM inference: sums and maxima over state sequences
-/

namespace Verif.Spec

open Verif

variable {K n : ℕ}

/-- Probability weight of a state sequence `p` over frames `0..n`:
initial × transitions × emissions × final. -/
noncomputable def pathWeight (g : CGraph K) (llhs : Fin (n + 1) → Frame K)
    (p : Fin (n + 1) → Fin K) : ℝ :=
  lexp (g.init (p 0)) * (∏ i : Fin n, lexp (g.trans (p i.castSucc) (p i.succ)))
    * (∏ t, lexp (llhs t (p t))) * lexp (g.final (p (Fin.last n)))

/-- The same weight without the final probability. -/
noncomputable def prefixWeight (g : CGraph K) (llhs : Fin (n + 1) → Frame K)
    (p : Fin (n + 1) → Fin K) : ℝ :=
  lexp (g.init (p 0)) * (∏ i : Fin n, lexp (g.trans (p i.castSucc) (p i.succ)))
    * (∏ t, lexp (llhs t (p t)))

/-- Total probability of the utterance. -/
noncomputable def evidence (g : CGraph K) (llhs : Fin (n + 1) → Frame K) : ℝ :=
  ∑ p : Fin (n + 1) → Fin K, pathWeight g llhs p

/-- Log score of a state sequence. -/
noncomputable def pathScore (g : CGraph K) (llhs : Fin (n + 1) → Frame K)
    (p : Fin (n + 1) → Fin K) : LogR :=
  g.init (p 0) + (∑ i : Fin n, g.trans (p i.castSucc) (p i.succ))
    + (∑ t, llhs t (p t)) + g.final (p (Fin.last n))

end Verif.Spec
