import Mathlib.Algebra.Field.Basic
import Mathlib.Algebra.BigOperators.Fin
import Mathlib.Data.List.Dedup
import Mathlib.Data.String.Basic

/-!
# Specification of the initialisation of a subspace phone-loop
-/

namespace Verif.SPLSpec

/-- The class of a unit according to a class file (pairs unit, class): the last line about it. -/
def classOf (file : List (String × String)) (unit : String) : Option String :=
  (file.reverse.find? fun p => p.1 = unit).map Prod.snd

/-- The different classes of a class file. -/
def classes (file : List (String × String)) : List String := (file.map Prod.snd).dedup

/-- The number of a class: how many classes of the file come before it in the alphabetic order. -/
def classRank (file : List (String × String)) (c : String) : ℕ :=
  ((classes file).filter fun d => d < c).length

variable {F : Type} [Field F] {S K Q : ℕ}

/-- The number of frames of a unit: the last column holds the number of frames of each state. -/
def frames (stats : Fin S → Fin (K + 1) → F) : F := ∑ s, stats s (Fin.last K)

/-- The number of frames of a component: the one in its column, and for the last component what remains
of the frames of the state. -/
def componentFrames (stats : Fin S → Fin (K + 1) → F) (s : Fin S) (c : Fin (K + 1)) : F :=
  if c = Fin.last K then stats s (Fin.last K) - ∑ i : Fin K, stats s i.castSucc else stats s c

/-- The statistics of all the components of a unit. -/
def total (stats : Fin (S * (K + 1)) → Fin Q → F) (q : Fin Q) : F := ∑ k, stats k q

end Verif.SPLSpec
