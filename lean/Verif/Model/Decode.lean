import Verif.Model.Py
import Mathlib.Data.List.Range
import Mathlib.Algebra.BigOperators.Group.List.Basic

/-!
# Conversion of states to phones

* `beer/cli/subcommands/hmm/decode.py:27-40` (`state2phone`)
* `beer/cli/subcommands/hmm/posteriors.py:30-35` (`state2phone`)

The dictionaries `start_pdf` and `end_pdf` (phone name → index of its first, last emitting state) are
lists of items in dictionary order.
-/

namespace Verif.Decode

variable {P : Type}

/-- `{value: key for key, value in start_pdf.items()}[state]`: the last item with the value wins. -/
def lookupSym (startPdf : List (P × ℕ)) (state : ℕ) : Option P :=
  (startPdf.reverse.find? (fun item => item.2 = state)).map Prod.fst

/-- `decode.py:33-39` the loop; `phones` is accumulated from the left. -/
def state2phoneLoop (startPdf : List (P × ℕ)) (perFrame : Bool) :
    List ℕ → ℕ → P → List P → Except Err (List P)
  | [], _, _, phones => .ok phones
  | state :: path, previous, lastSym, phones =>
    if state ≠ previous ∧ state ∈ startPdf.map Prod.snd then
      match lookupSym startPdf state with
      | none => .error .keyError
      | some sym => state2phoneLoop startPdf perFrame path state sym (phones ++ [sym])
    else if perFrame then state2phoneLoop startPdf perFrame path state lastSym (phones ++ [lastSym])
    else state2phoneLoop startPdf perFrame path state lastSym phones

/-- `decode.py:27-40`. -/
def state2phone (startPdf : List (P × ℕ)) (perFrame : Bool) : List ℕ → Except Err (List P)
  | [] => .error .indexError
  | state :: path =>
    match lookupSym startPdf state with
    | none => .error .keyError
    | some sym => state2phoneLoop startPdf perFrame path state sym [sym]

/-- `posts[:, start:end].sum(axis=-1)` for one frame (non-negative bounds, clipped to the number of
columns). -/
def sliceSum {K : Type} [Zero K] [Add K] (row : List K) (start stop : ℕ) : K :=
  ((row.take stop).drop start).sum

/-- Column of the phone `item.1`: `KeyError` when it is not in `end_pdf`. -/
def phoneColumn {K : Type} [Zero K] [Add K] [DecidableEq P] (endPdf : List (P × ℕ)) (row : List K)
    (item : P × ℕ) : Except Err K :=
  match endPdf.lookup item.1 with
  | none => .error .keyError
  | some stop => .ok (sliceSum row item.2 stop)

/-- `hmm/posteriors.py:30-35` for one frame: one column per item of `start_pdf`. -/
def phonePosteriors {K : Type} [Zero K] [Add K] [DecidableEq P] (startPdf endPdf : List (P × ℕ))
    (row : List K) : Except Err (List K) :=
  startPdf.mapM (phoneColumn endPdf row)

end Verif.Decode
