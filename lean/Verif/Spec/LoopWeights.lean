import Verif.Model.LoopWeights
import Verif.Spec.LoopVB
import Verif.Spec.SBHyper

/-!
# Specification of the training of phone loops with other weights: the objective
-/

namespace Verif.VB

open Real Verif.Dists Verif.DistSpec Verif.Spec Verif.PhoneLoop

variable {X ι : Type} {M S P : ℕ}

/-- The log-probability of an utterance: the logarithm of a sum over all the state sequences of the graph of its alignment, or of
the decoding graph. -/
noncomputable def wLogProb {inner : SetModel X M} {W : WeightModel ι} (conf : WConf M S) (a : ℝ) (st : WState inner W S)
    (u : LUtt X M) : ℝ :=
  match u.ali with
  | none => log (evidence (st.graph conf) (stateScores st.comps a conf.order u.frames))
  | some ⟨_, g, order⟩ => log (evidence g (stateScores st.comps a order u.frames))

/-- The objective: `scale` times the log-probabilities of the utterances, minus the divergences of the emissions and of the
weights (`div`) to their priors. -/
noncomputable def wObjective {inner : SetModel X M} {W : WeightModel ι} (div : W.State → ℝ) (conf : WConf M S) (a : ℝ)
    (utts : List (LUtt X M)) (scale : ℝ) (st : WState inner W S) : ℝ :=
  scale * (utts.map (wLogProb conf a st)).sum - valueOf 0 (inner.kl st.comps) - div st.weights

/-- The probability that an utterance without alignment starts with a state. -/
noncomputable def wStartProb {inner : SetModel X M} {W : WeightModel ι} (conf : WConf M S) (a : ℝ) (st : WState inner W S)
    (u : LUtt X M) (s : Fin S) : ℝ :=
  match u.ali with
  | none =>
    (∑ p : Fin (u.frames.1 + 1) → Fin S, if p 0 = s then
        pathWeight (st.graph conf) (stateScores st.comps a conf.order u.frames) p else 0) /
      evidence (st.graph conf) (stateScores st.comps a conf.order u.frames)
  | some _ => 0

/-- The graph used for an utterance has a state sequence of non-zero probability with as many states as the utterance has
frames. -/
def WFeasible (conf : WConf M S) (T : TMat S) (u : LUtt X M) : Prop :=
  match u.ali with
  | none => Feasible (⟨conf.init, conf.final, T⟩ : CGraph S) u.frames
  | some ⟨_, g, _⟩ => Feasible g u.frames

/-- The units have different first states, different last states, and no state is the first of a unit and the last of one. -/
structure UnitStates (starts ends : Fin P → Fin S) : Prop where
  startsInj : Function.Injective starts
  endsInj : Function.Injective ends
  disjoint : ∀ i j, starts j ≠ ends i

/-- Valid parameters, and the decoding graph is the one which `__init__` makes from `T` with the current weights. -/
structure WValid {inner : SetModel X M} {W : WeightModel ι} (L : LoopClass ι S) (V : inner.State → Prop) (VW : W.State → Prop)
    (T : TMat S) (st : WState inner W S) : Prop where
  weights : VW st.weights
  comps : V st.comps
  made : WState.make L T st.weights st.comps = st

/-- The weights of a unigram loop with stick-breaking weights. -/
def catOf [NeZero P] {sort : (Fin P → ℝ) → Equiv.Perm (Fin P)} (w : (sbWeights sort).State) : SBCat P := w

/-- Valid sticks whose priors are those of a concentration. -/
def CatValid (α : ℝ) (s : SBCat P) : Prop := SticksValid s ∧ StickPrior α s

/-- The divergence of the sticks of a model of weights. -/
noncomputable def sticksDiv (s : SBCat P) : ℝ := valueOf 0 s.kl

/-- The divergence of the sticks and of the concentration of a model with hyper-prior, averaged over the concentration. -/
noncomputable def hypDiv (a0 b0 : ℝ) (s : SBState P) : ℝ :=
  match s.concPost with
  | ⟨[a], [b]⟩ => (∑ k, stickDivergence a b (s.sbPost k)) + concDivergence a b a0 b0
  | _ => 0

/-- A valid state of a model with hyper-prior. -/
def HypOk (a0 b0 : ℝ) (s : SBState P) : Prop := ∃ a b, HypValid a0 b0 a b s

/-- The divergences of a set of Dirichlet distributions. -/
noncomputable def dirSetDiv (w : Fin P → CParam (List ℝ)) : ℝ := ∑ k, valueOf 0 ((dirFam P).paramKl (w k))

/-- Valid parameters of a set of Dirichlet distributions. -/
def RowsValid (w : Fin P → CParam (List ℝ)) : Prop := ∀ k, ParamValid (DirValid P) (w k)

/-- The rows of the weights of a bigram loop. -/
def rowsOf (w : (dirSetWeights P).State) : Fin P → CParam (List ℝ) := w

/-- The exception with which the accumulation for an utterance with an alignment ends. -/
def alignedError : CatSetKind → Err
  | .categoricalSet => .typeError
  | .sbCategoricalSet => .notImplemented

/-- The divergences of the sticks of a set. -/
noncomputable def sbSetDiv (w : CParam (Fin (P * P) → ℝ × ℝ)) : ℝ :=
  ∑ p, valueOf 0 ((dirFam 2).kl [(w.post p).1, (w.post p).2] [(w.prior p).1, (w.prior p).2])

/-- Valid sticks of a set. -/
def SetSticksValid (w : CParam (Fin (P * P) → ℝ × ℝ)) : Prop :=
  ∀ p, (0 < (w.prior p).1 ∧ 0 < (w.prior p).2) ∧ 0 < (w.post p).1 ∧ 0 < (w.post p).2

end Verif.VB
