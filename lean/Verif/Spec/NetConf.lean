import Mathlib.Data.List.Basic

/-!
# Specification of the network configurations
-/

namespace Verif.NetConfSpec

/-- Strings put together with a separator between them. -/
def joinWith (sep : Char) : List (List Char) → List Char
  | [] => []
  | [p] => p
  | p :: ps => p ++ sep :: joinWith sep ps

/-- The text of an element: `name:arg1=val1;arg2=val2`. -/
def render (argSep : Char) (name : List Char) (kwargs : List (List Char × List Char)) : List Char :=
  if kwargs = [] then name
  else name ++ ':' :: joinWith argSep (kwargs.map fun p => p.1 ++ '=' :: p.2)

/-- No character that has a meaning in the format. -/
def Plain (s : List Char) : Prop := ∀ c ∈ s, c ≠ ':' ∧ c ≠ ';' ∧ c ≠ '=' ∧ c ≠ '|' ∧ c.isWhitespace = false

end Verif.NetConfSpec
