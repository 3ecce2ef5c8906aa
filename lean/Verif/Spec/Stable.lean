import Verif.Model.HMM

/-!
# Errors of log-domain numbers
-/

namespace Verif.Spec

open Verif

variable {K n : ℕ}

/-- Two log-domain numbers differ by at most `c`; `-inf` differs from `-inf` only. -/
def Within (c : ℝ) (a b : LogR) : Prop := a ≤ b + ((c : ℝ) : LogR) ∧ b ≤ a + ((c : ℝ) : LogR)

/-- Errors of the initial probabilities, of the transitions, of the final probabilities and of the scores of each frame. -/
structure Errors (n : ℕ) where
  init : ℝ
  trans : ℝ
  final : ℝ
  score : Fin (n + 1) → ℝ

/-- What they sum up to along a sequence of states. -/
noncomputable def Errors.total (e : Errors n) : ℝ := e.init + n * e.trans + ∑ t, e.score t + e.final

/-- Two graphs with scores which differ by no more than the errors. -/
structure Errors.Bound (e : Errors n) (g g' : CGraph K) (llhs llhs' : Fin (n + 1) → Frame K) : Prop where
  init : ∀ s, Within e.init (g.init s) (g'.init s)
  trans : ∀ s d, Within e.trans (g.trans s d) (g'.trans s d)
  final : ∀ s, Within e.final (g.final s) (g'.final s)
  score : ∀ t s, Within (e.score t) (llhs t s) (llhs' t s)

end Verif.Spec
