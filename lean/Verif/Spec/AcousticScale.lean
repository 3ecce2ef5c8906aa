import Verif.Spec.HMM
import Verif.Model.VBTrain

/-!
# The acoustic scale: vocabulary
-/

namespace Verif.Spec

open Verif

variable {K n : ℕ}

/-- The log-likelihoods `v` multiplied by the acoustic scale. -/
noncomputable def scaledBy (a : ℝ) (v : Fin (n + 1) → Fin K → ℝ) : Fin (n + 1) → Frame K := fun t s => ((a * v t s : ℝ) : LogR)

/-- The log-likelihood of the frames along a sequence of states. -/
def acousticScore (v : Fin (n + 1) → Fin K → ℝ) (p : Fin (n + 1) → Fin K) : ℝ := ∑ t, v t (p t)

/-- The probability that the graph gives to a sequence of states, before seeing the frames. -/
noncomputable def graphWeight (g : CGraph K) (p : Fin (n + 1) → Fin K) : ℝ :=
  lexp (g.init (p 0)) * (∏ i : Fin n, lexp (g.trans (p i.castSucc) (p i.succ))) * lexp (g.final (p (Fin.last n)))

/-- Some sequence of `n + 1` states is possible. -/
def Traversable (g : CGraph K) (n : ℕ) : Prop := ∃ p : Fin (n + 1) → Fin K, 0 < graphWeight g p

/-- `m` is the best acoustic score of the sequences that the graph allows. -/
def BestAcoustic (g : CGraph K) (v : Fin (n + 1) → Fin K → ℝ) (m : ℝ) : Prop :=
  (∃ p, 0 < graphWeight g p ∧ acousticScore v p = m) ∧ ∀ p, 0 < graphWeight g p → acousticScore v p ≤ m

/-- The share of the sequences in state `s` at frame `t`, when the sequence `p` counts for `w p`. -/
noncomputable def shareOf (w : (Fin (n + 1) → Fin K) → ℝ) (t : Fin (n + 1)) (s : Fin K) : ℝ :=
  (∑ p, if p t = s then w p else 0) / ∑ p, w p

end Verif.Spec
