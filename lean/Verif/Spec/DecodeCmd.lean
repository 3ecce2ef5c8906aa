import Verif.Model.DecodeCmd
import Verif.Spec.GraphLang
import Mathlib.Logic.Relation

/-!
# Specification: paths, inventories of units and transcriptions
-/

namespace Verif.Spec

open Verif

/-- `w` are the pdf ids along a state sequence which the graph allows: no log-probability along it is `-inf`. -/
def Possible (g : DecodeCmd.LGraph) (w : List ℕ) : Prop :=
  ∃ q : List (Fin (g.last + 1)), (∃ a, q.head? = some a ∧ g.graph.init a ≠ ⊥) ∧
    q.IsChain (fun a b => g.graph.trans a b ≠ ⊥) ∧ (∃ b, q.getLast? = some b ∧ g.graph.final b ≠ ⊥) ∧ w = q.map g.pdf

/-- Once the first emitting state of the topology is left, no way leads to it again; and nothing leaves the last state. -/
structure EntersOnce {F : Type} (topo : List (Arc F)) (m : ℕ) : Prop where
  ends : ∀ a ∈ topo, a.start ≠ m - 1
  once : ∀ a ∈ topo, a.start = 0 → ∀ b ∈ topo, b.stop = a.stop →
    Relation.ReflTransGen (fun i j => ∃ c ∈ topo, c.start = i ∧ c.stop = j) a.stop b.start → b.start = a.stop

/-- The inventory of units: distinct names, topologies which enter their first emitting state once, and the pdfs numbered
from `0` to `n - 1` through the units. -/
structure Inventory {F : Type} [LT F] [Zero F] (hmms : List (String × Graph F)) (n : ℕ) : Prop where
  names : (hmms.map Prod.fst).Nodup
  units : ∀ p ∈ hmms, ∃ topo m first, p.2 = unitHmm topo m first ∧ ValidTopo topo m ∧ EntersOnce topo m
  pdfs : hmms.flatMap (fun p => p.2.states.filterMap Prod.snd) = List.range n

/-- `ws` has one sequence accepted by each unit of `us`, in order. -/
def Spoken {F : Type} (hmms : List (String × Graph F)) (us : List String) (ws : List (List ℕ)) : Prop :=
  List.Forall₂ (fun u v => ∃ hmm, (u, hmm) ∈ hmms ∧ Accepts hmm v) us ws

/-- `out` is `us` where some units which repeat the previous one are left out. -/
inductive Merged {α : Type} : List α → List α → Prop
  | nil : Merged [] []
  | keep (u : α) (us out : List α) : Merged us out → Merged (u :: us) (u :: out)
  | drop (u : α) (us out : List α) : Merged (u :: us) out → Merged (u :: u :: us) out

end Verif.Spec

namespace Verif.Spec

open Verif Verif.DecodeCmd

/-- The utterances to decode: the first words of the lines given, or all those of the data set. -/
def Chosen (utts : Option (List (List String))) (dataset : List (String × Feats)) (names : List String) : Prop :=
  match utts with
  | none => names = dataset.map Prod.fst
  | some ls => List.Forall₂ (fun l name => l.head? = some name) ls names

/-- The graph an utterance is decoded with: its alignment graph if there is one, else the graph of the model. -/
def GraphFor (m : HModel) (alis : Option (List (String × LGraph))) (name : String) (g : LGraph) : Prop :=
  (∃ d, alis = some d ∧ Pipeline.dictGet d name = .ok g) ∨
  ((alis = none ∨ ∃ d, alis = some d ∧ name ∉ d.map Prod.fst) ∧ g = m.graph)

/-- What is printed for an utterance of the data set. -/
def Answer (am : Argmax) (m : HModel) (scale : ℝ) (perFrame : Bool) (alis : Option (List (String × LGraph)))
    (dataset : List (String × Feats)) (name : String) (r : Except Err (List String)) : Prop :=
  ∃ x g, Pipeline.dictGet dataset name = .ok x ∧ GraphFor m alis name g ∧
    r = match decode am m scale (some g) x with
      | .error e => .error e
      | .ok path => Decode.state2phone (starts m.startPdf) perFrame path

end Verif.Spec
