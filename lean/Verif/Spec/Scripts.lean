import Mathlib.Data.List.Destutter
import Mathlib.Data.Real.Basic

/-!
# Specification of the data preparation scripts
-/

namespace Verif.ScriptSpec

/-- The maximal runs of equal labels, as (label, first frame, frame after the last). -/
def segments : List String → ℕ → List (String × ℕ × ℕ)
  | [], _ => []
  | x :: xs, i =>
    match segments xs (i + 1) with
    | [] => [(x, i, i + 1)]
    | (y, a, b) :: rest => if x = y then (x, i, b) :: rest else (x, i, i + 1) :: (y, a, b) :: rest

/-- Column of an archive: the values of coordinate `j` in all the frames. -/
def column {F : Type} [Zero F] (feats : List (ℕ × List (List F))) (j : ℕ) : List F :=
  (feats.flatMap Prod.snd).map fun r => r.getD j 0

/-- Mean of a list of values. -/
def meanOf {F : Type} [Field F] (xs : List F) : F := xs.sum / xs.length

/-- Variance of a list of values. -/
def varOf {F : Type} [Field F] (xs : List F) : F := (xs.map fun x => (x - meanOf xs) ^ 2).sum / xs.length

/-- The lines of a pdf mapping file for a list of units with their pdfs, in order. -/
def mappingLines (units : List (String × List String)) : List (List String) :=
  units.flatMap fun u => u.2.map fun pdf => [pdf, u.1]

/-- States of the unit number `i` when every unit has `n` states. -/
def statesOfUnit (n i : ℕ) : List ℕ := (List.range n).map fun j => i * n + j

end Verif.ScriptSpec
