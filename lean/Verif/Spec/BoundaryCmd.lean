import Verif.Spec.Scoring
import Mathlib.Data.Rat.Defs

/-!
# Specification of the scores of boundaries
-/

namespace Verif.Spec

/-- The (one-based) frames whose label is not that of the frame before. -/
def boundaryFrames (l : List String) : List ℤ :=
  ((List.range (l.length - 1)).filter fun k => l[k]? ≠ l[k + 1]?).map fun k : ℕ => (k : ℤ) + 2

/-- The utterances which can be scored: the reference `r` and the hypothesis `h` have frames, and the reference has a boundary
unless the hypothesis has none. -/
def Scorable (r h : List String) : Prop := r ≠ [] ∧ h ≠ [] ∧ (boundaryFrames r ≠ [] ∨ boundaryFrames h = [])

/-- `f` renames the units: different units of the utterance have different new names. -/
def Renames (f : String → String) (l : List String) : Prop := ∀ x ∈ l, ∀ y ∈ l, f x = f y → x = y

/-- The transcription with new names, utterance by utterance. -/
def renamed (f : String → String) (tr : List (String × List String)) : List (String × List String) :=
  tr.map fun p => (p.1, p.2.map f)

end Verif.Spec
