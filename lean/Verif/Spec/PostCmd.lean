import Verif.Model.PostCmd
import Verif.Spec.HMM
import Verif.Spec.DecodeCmd

/-!
# Specification: posterior probabilities of the states
-/

namespace Verif.Spec

open Verif Verif.PostCmd

/-- The probability of being in state `s` at frame `t`, under the distribution over the state sequences. -/
noncomputable def stateProb {K n : ℕ} (g : CGraph K) (llhs : Fin (n + 1) → Frame K) (t : Fin (n + 1)) (s : Fin K) : ℝ :=
  (∑ p : Fin (n + 1) → Fin K, if p t = s then pathWeight g llhs p else 0) / ∑ p, pathWeight g llhs p

/-- The log-likelihoods of the frames for the states of the graph, multiplied by the acoustic scale. -/
noncomputable def scaledLlh {d : ℕ} (m : PModel d) (scale : ℝ) (n : ℕ) (stats : Fin n → Fin d → ℝ) :
    Fin n → Frame (m.graph.last + 1) :=
  fun t k => ((scale * (setRow m.emissions (stats t)).getD (m.graph.pdf k) 0 : ℝ) : LogR)

/-- The file holds the numbers `q`, one row per frame and one column per state. -/
def Holds {n K : ℕ} (file : List (List NFloat)) (q : Fin n → Fin K → ℝ) : Prop :=
  file = List.ofFn fun t => List.ofFn fun k => ((q t k : ℝ) : NFloat)

/-- The requested utterances. -/
def Requested {d : ℕ} (utts : Option (List (List String))) (dataset : List (String × UttStats d)) (names : List String) :
    Prop :=
  match utts with
  | none => names = dataset.map Prod.fst
  | some ls => List.Forall₂ (fun l name => l.head? = some name) ls names

end Verif.Spec
