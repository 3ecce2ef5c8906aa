import Verif.Model.ModelSet
import Mathlib.Algebra.BigOperators.Group.List.Basic

/-!
# Specifications for model sets
-/

namespace Verif.ModelSet

/-- The set of mixtures made of the given mixtures (a categorical and its components each): the order
of the components in the set defines to which mixture they belong (`mixtureset.py:35-39`). -/
def ofMixtures {α β : Type} (l : List (α × List β)) : MixSet α β :=
  ⟨l.map Prod.fst, l.flatMap Prod.snd⟩

/-- Scalar product of two rows. -/
def rowDot {R : Type*} [Mul R] [Add R] [Zero R] (u v : List R) : R := (List.zipWith (· * ·) u v).sum

/-- Sum of the responsibilities of the positions that point to component `i` of `n`. -/
def pointedMass {R : Type*} [Add R] [Zero R] (n : ℕ) (order : List ℤ) (resps : List R) (i : ℕ) : R :=
  (((order.zip resps).filter fun p => normIdx n p.1 = some i).map Prod.snd).sum

mutual

/-- Every module below the root that has children is an instance of `Model`, and no module has the same
parameter under two names. -/
def AllModels : Mod → Prop
  | .param _ => True
  | .node b cs => b = true ∧ (cs.filterMap fun c => match c.2 with
      | .param i => some i
      | .node _ _ => none).Nodup ∧ AllModelsList cs

/-- `AllModels` for children. -/
def AllModelsList : List (String × Mod) → Prop
  | [] => True
  | (_, c) :: cs => AllModels c ∧ AllModelsList cs

end

mutual

/-- Specification: the tree with every parameter that is a key of the map replaced by its image. -/
def substAll (paramsmap : ℕ → Option Mod) : Mod → Mod
  | .param i => (paramsmap i).getD (.param i)
  | .node b cs => .node b (substAllList paramsmap cs)

/-- `substAll` for children. -/
def substAllList (paramsmap : ℕ → Option Mod) : List (String × Mod) → List (String × Mod)
  | [] => []
  | (name, c) :: cs => (name, substAll paramsmap c) :: substAllList paramsmap cs

end

end Verif.ModelSet
