import Verif.Model.DecodeCmd
import Verif.Model.PhoneLoop

/-!
# The decoding graph of a phone loop through its training

* `beer/models/phoneloop.py` 44-65 (`PhoneLoop`) and 136-157 (`BigramPhoneLoop`): the transitions of the compiled
  decoding graph are overwritten when the phone loop is made and after every update of its weights.

The dictionaries `start_pdf` and `end_pdf` hold pdf ids, which are used as numbers of states.  The weights of an update are
a table: row `i` for the `i`-th unit which ends (all the rows are equal for `PhoneLoop`), column `j` for the `j`-th unit.
-/

namespace Verif.LoopTrain

open Verif Pipeline DecodeCmd PhoneLoop

/-- The values of a dictionary used as indices of a tensor with `n` rows, `phoneloop.py` 60-65: an index out of range
raises `IndexError`. A value `None`, which torch takes as a new axis, is an error here. -/
def indices (n : ℕ) : List (String × Option ℕ) → Except Err (List (Fin n))
  | [] => .ok []
  | (_, none) :: _ => .error .typeError
  | (_, some v) :: rest =>
    if h : v < n then
      match indices n rest with
      | .error e => .error e
      | .ok l => .ok (⟨v, h⟩ :: l)
    else .error .indexError

/-- `phoneloop.py` 60-65 and 152-157, with the log-weights `W`. -/
noncomputable def onUpdate {n : ℕ} (s e : List (Fin n)) (T : TMat n) (W : ℕ → ℕ → ℝ) : TMat n :=
  e.zipIdx.foldl (fun T p => refreshEnd (fun j : Fin s.length => s[j.1]) (fun j => W p.2 j.1) T p.1) T

/-- The graph of the phone loop after the updates of `history` (the first one is made by `__init__`). -/
noncomputable def trainedGraph (g : LGraph) (entry exit : List (String × Option ℕ)) (history : List (ℕ → ℕ → ℝ)) :
    Except Err LGraph :=
  match indices (g.last + 1) entry with
  | .error e => .error e
  | .ok s =>
    match indices (g.last + 1) exit with
    | .error e => .error e
    | .ok e => .ok ⟨g.last, ⟨g.graph.init, g.graph.final, history.foldl (onUpdate s e) g.graph.trans⟩, g.pdf⟩

end Verif.LoopTrain
