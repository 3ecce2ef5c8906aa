import Verif.Model.Detached
import Verif.Spec.AcousticScale

/-!
# Log-evidence as a function of the log-likelihoods
-/

namespace Verif.Spec

open Real Verif Verif.VB

variable {K n : ℕ}

/-- The log-probability of the utterance, as a function of the log-likelihoods of the frames. -/
noncomputable def logEvidence (g : CGraph K) (v : Fin (n + 1) → Fin K → ℝ) : ℝ := log (evidence g (asLog v))

/-- The graph with the log-probabilities of its transitions raised by `x · δ`. -/
noncomputable def tilted (g : CGraph K) (δ : Fin K → Fin K → ℝ) (x : ℝ) : CGraph K :=
  ⟨g.init, g.final, fun i j => g.trans i j + ((x * δ i j : ℝ) : LogR)⟩

/-- The log-likelihoods with those of state `s` at frame `t` raised by `x`. -/
def boosted (v : Fin (n + 1) → Fin K → ℝ) (t : Fin (n + 1)) (s : Fin K) (x : ℝ) : Fin (n + 1) → Fin K → ℝ :=
  fun t' s' => v t' s' + if t' = t ∧ s' = s then x else 0

/-- The log-probability of a sequence of states and the utterance. -/
noncomputable def logPath (g : CGraph K) (v : Fin (n + 1) → Fin K → ℝ) (p : Fin (n + 1) → Fin K) : ℝ :=
  log (pathWeight g (asLog v) p)

/-- Moving along a curve, `f` and `h` have the same derivative `D` at `x`. -/
def SameSlope (f h : ℝ → ℝ) (D x : ℝ) : Prop := HasDerivAt f D x ∧ HasDerivAt h D x

end Verif.Spec
