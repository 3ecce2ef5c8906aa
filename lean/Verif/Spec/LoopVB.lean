import Verif.Model.LoopVB
import Verif.Spec.VBTrain

/-!
# Specification of the training of a phone loop: its objective
-/

namespace Verif.VB

open Real Verif.Dists Verif.DistSpec Verif.Spec Verif.PhoneLoop

variable {X : Type} {M S P : ℕ}

/-- The log-likelihoods of the states of a graph, scaled by `a`. -/
noncomputable def stateScores {inner : SetModel X M} (st : inner.State) (a : ℝ) {S' : ℕ} (order : Fin S' → Fin M)
    (u : Utt X) : Fin (u.1 + 1) → Fin S' → LogR :=
  fun t s => ((a * valueOf 0 (inner.llh st (u.2 t)) (order s) : ℝ) : LogR)

/-- The log-probability of an utterance: the logarithm of a sum over all the state sequences of the graph of its
alignment, or of the decoding graph. -/
noncomputable def uttLogProb (conf : LoopConf M S P) {inner : SetModel X M} (st : LoopState inner S) (a : ℝ)
    (u : LUtt X M) : ℝ :=
  match u.ali with
  | none => log (evidence (st.graph conf) (stateScores st.comps a conf.order u.frames))
  | some ⟨_, g, order⟩ => log (evidence g (stateScores st.comps a order u.frames))

/-- The objective: `scale` times the log-probabilities of the utterances, minus the divergences of the emissions and of the
weights to their priors. -/
noncomputable def loopObjective (conf : LoopConf M S P) {inner : SetModel X M} (a : ℝ) (utts : List (LUtt X M))
    (scale : ℝ) (st : LoopState inner S) : ℝ :=
  scale * (utts.map (uttLogProb conf st a)).sum - valueOf 0 (inner.kl st.comps) -
    valueOf 0 ((dirFam P).paramKl st.weights)

/-- The expected logarithm of the weight of a unit. -/
noncomputable def unitLogWeight {inner : SetModel X M} (st : LoopState inner S) (j : Fin P) : ℝ :=
  valueOf 0 (logWeights P st.weights.post) j

/-- The probability that an utterance starts with a state, zero for an utterance which has an alignment. -/
noncomputable def startProb (conf : LoopConf M S P) {inner : SetModel X M} (st : LoopState inner S) (a : ℝ)
    (u : LUtt X M) (s : Fin S) : ℝ :=
  match u.ali with
  | none =>
    (∑ p : Fin (u.frames.1 + 1) → Fin S, if p 0 = s then
        pathWeight (st.graph conf) (stateScores st.comps a conf.order u.frames) p else 0) /
      evidence (st.graph conf) (stateScores st.comps a conf.order u.frames)
  | some _ => 0

/-- The graph used for an utterance has a state sequence of non-zero probability with as many states as the utterance has
frames. -/
def LoopFeasible (conf : LoopConf M S P) (T : TMat S) (u : LUtt X M) : Prop :=
  match u.ali with
  | none => Feasible (⟨conf.init, conf.final, T⟩ : CGraph S) u.frames
  | some ⟨_, g, _⟩ => Feasible g u.frames

/-- The units have different first states, different last states, and no state is the first of a unit and the last of
one. -/
structure LoopUnits (conf : LoopConf M S P) : Prop where
  starts : Function.Injective conf.starts
  ends : conf.ends.Nodup
  disjoint : ∀ e ∈ conf.ends, ∀ j, conf.starts j ≠ e

/-- Valid parameters, and the decoding graph is the one which `__init__` makes from `T` with the current weights. -/
structure LoopValid (conf : LoopConf M S P) {inner : SetModel X M} (V : inner.State → Prop) (T : TMat S)
    (st : LoopState inner S) : Prop where
  weights : ParamValid (DirValid P) st.weights
  comps : V st.comps
  made : LoopState.make conf T st.weights st.comps = .ok st

end Verif.VB
