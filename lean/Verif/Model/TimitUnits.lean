import Verif.Model.Pipeline

/-!
# The HMMs of the units of the old TIMIT recipe

`recipes/timit_v2/utils/hmm-create-graph-and-emissions.py`.  The configuration is the list of its groups, the list of phones the
list of the fields of its lines.  Of the emissions only the number of densities is modelled; their statistics (lines 132-139) only
set their parameters.  The numbers of units, states and Normals of a group are natural numbers.
-/

namespace Verif.TimitUnits

open Verif Pipeline Graph

variable {F : Type}

/-- A group of the configuration: the fields read by the script (`none`: the field is missing). -/
structure TGroup (F : Type) where
  nUnits : ℕ
  nStates : ℕ
  topo : List (Arc F)
  emission : Option String
  shared : Bool

/-- `create_unit_graph`, `hmm-create-graph-and-emissions.py` 24-42 (`parse_topology`, lines 14-21, lists the arcs in order). The loop
over the states is that of `mkphones.py`; without states `states[0]` raises `IndexError`. -/
def timitUnit [Field F] [DecidableEq F] (n : ℕ) (arcs : List (Arc F)) (startPdf : ℤ) : Except Err (Graph F × ℤ) :=
  if n = 0 then .error .indexError
  else
    let g := unitStates 0 (n - 1) (List.range n) startPdf (Graph.empty : Graph F)
    match (({ g with startState := some 0, endState := some (n - 1) } : Graph F).addArcs arcs).normalize with
    | (_, some e) => .error e
    | (g, none) => .ok (g, startPdf + n - 2)

/-- The loop over the units of a group, `hmm-create-graph-and-emissions.py` 148-154; the state is `unit_count`, `pdf_id` and `units`. -/
def timitMakeUnits [Field F] [DecidableEq F] (phones : List String) (g : TGroup F) :
    ℕ → ℕ × ℤ × List (String × Graph F) → Except Err (ℕ × ℤ × List (String × Graph F))
  | 0, st => .ok st
  | k + 1, st =>
    match timitUnit g.nStates g.topo st.2.1 with
    | .error e => .error e
    | .ok r =>
      match phones[st.1]? with
      | none => .error .indexError
      | some name => timitMakeUnits phones g k (st.1 + 1, r.2, dictSet st.2.2 name r.1)

/-- `create_emissions` and `MixtureSet.create`, `hmm-create-graph-and-emissions.py` 44-104 and 156-158: the number of densities;
`none` is `exit(1)`. `beer.LDSSet` does not exist (`beer/models/__init__.py` 1-22). A negative number of Normals is refused by
`torch`, a negative length by `len` (`modelset.py` 210-211), and without densities the division of `mixtureset.py` 48 fails. -/
def timitEmissions (g : TGroup F) : Except Err (Option ℕ) :=
  let tot : ℤ := g.nUnits * ((g.nStates : ℤ) - 2)
  match g.emission with
  | none => .error .keyError
  | some e =>
    if e = "GMM" then
      if tot < 0 then .error (if g.shared then .valueError else .runtimeError)
      else if tot = 0 then .error .zeroDivision
      else .ok (some tot.toNat)
    else if e = "LDS" then .error .attributeError
    else .ok none

/-- The loop over the groups, `hmm-create-graph-and-emissions.py` 145-159; the last component of the state is the number of
densities of `emissions`. -/
def timitGroups [Field F] [DecidableEq F] (phones : List String) :
    List (TGroup F) → ℕ × ℤ × List (String × Graph F) → ℕ → Except Err (Option (List (String × Graph F) × ℕ))
  | [], st, n => .ok (some (st.2.2, n))
  | g :: gs, st, n =>
    match timitMakeUnits phones g g.nUnits st with
    | .error e => .error e
    | .ok st' =>
      match timitEmissions g with
      | .error e => .error e
      | .ok none => .ok none
      | .ok (some m) => timitGroups phones gs st' (n + m)

/-- The loop reading the phones, `hmm-create-graph-and-emissions.py` 124-128. -/
def timitPhones : List (List String) → Except Err (List String)
  | [] => .ok []
  | [] :: _ => .error .indexError
  | (p :: _) :: ls =>
    match timitPhones ls with
    | .error e => .error e
    | .ok ps => .ok (p :: ps)

/-- `main`, `hmm-create-graph-and-emissions.py` 107-168: the units and the number of densities written; `none` is `exit(1)`. -/
def timitMain [Field F] [DecidableEq F] (conf : List (TGroup F)) (phoneLines : List (List String)) :
    Except Err (Option (List (String × Graph F) × ℕ)) :=
  match timitPhones phoneLines with
  | .error e => .error e
  | .ok phones => timitGroups phones conf (0, 0, []) 0

end Verif.TimitUnits
