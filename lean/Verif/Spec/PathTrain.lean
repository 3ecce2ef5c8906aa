import Verif.Model.PathTrain
import Verif.Spec.VBTrain

/-!
# Objectives of training with state sequences
-/

namespace Verif.VB

open Real Verif Verif.Spec

variable {X : Type}

/-- The score of an utterance: along the given states, or the log-probability of its most probable state sequence. -/
noncomputable def sequenceScore {S n : ℕ} (g : CGraph S) (v : Fin (n + 1) → Fin S → ℝ) : Option (Fin (n + 1) → Fin S) → ℝ
  | some p => ∑ t, v t (p t)
  | none => log (⨆ p : Fin (n + 1) → Fin S, pathWeight g (asLog v) p)

/-- `scale` times the scores of the utterances, minus the divergence of the parameters. -/
noncomputable def pathObjective {S : ℕ} (g : CGraph S) (inner : SetModel X S) (a : ℝ) (utts : List (PUtt X S)) (scale : ℝ)
    (st : inner.State) : ℝ :=
  scale * (utts.map fun u => sequenceScore g (fun t s => a * valueOf 0 (inner.llh st (u.utt.2 t)) s) u.path).sum
    - valueOf 0 (inner.kl st)

/-- The utterances can be evaluated whatever the parameters: states smaller than the number of frames, and a
possible state sequence when none is given. -/
def Usable {S : ℕ} (g : CGraph S) (u : PUtt X S) : Prop :=
  match u.path with
  | some p => ∀ t, (p t).val < u.utt.1 + 1
  | none => S ≤ u.utt.1 + 1 ∧ Feasible g u.utt

/-- The frames of the utterances given to state `s`. -/
def framesOf {S : ℕ} (s : Fin S) (utts : List (PUtt X S)) : List X :=
  (utts.map fun u => ((List.finRange (u.utt.1 + 1)).filter fun t => u.path.map (fun p => p t) = some s).map u.utt.2).flatten

end Verif.VB
