import Verif.Model.Eval
import Mathlib.Algebra.Field.Defs
import Mathlib.Algebra.BigOperators.Group.List.Defs

/-!
# Data preparation scripts of the recipes

* `recipes/timit_v2/utils/features-extract-central-frame.py` 13-26, 54-60
* `recipes/timit_v2/utils/features-stats.py` 5-28
* `recipes/timit_v2/utils/pdf2unit.py` 8-56, `convert_states_to_phone.py` 20-70
* `recipes/aud/utils/prepare_phone_trans.py` 16-35, `convert_align.py` 14-22

Files are lists of lines, a line is the list of its fields.
-/

namespace Verif.Scripts

open Verif Pipeline

/-! ## `features-extract-central-frame.py` -/

/-- The loop of `get_cf`, lines 17-23: `i` is the index of the next frame. `int(start + .5 * (i - start))` is
the integer part of `(start + i) / 2`. -/
def cfLoop (pdfMapping : List (ℕ × String)) :
    List ℕ → ℕ → ℕ → String → List (String × ℕ) → Except Err (ℕ × String × List (String × ℕ))
  | [], _, start, previousLab, cfs => .ok (start, previousLab, cfs)
  | pdfId :: ali, i, start, previousLab, cfs =>
    match dictGet pdfMapping pdfId with
    | .error e => .error e
    | .ok label =>
      if label ≠ previousLab then
        cfLoop pdfMapping ali (i + 1) (i + 1) label (cfs ++ [(previousLab, (start + i) / 2)])
      else cfLoop pdfMapping ali (i + 1) start previousLab cfs

/-- `get_cf`, lines 13-26: after the loop `i` is the index of the last frame. -/
def getCf (ali : List ℕ) (pdfMapping : List (ℕ × String)) : Except Err (List (String × ℕ)) :=
  match ali with
  | [] => .error .indexError
  | pdfId :: _ =>
    match dictGet pdfMapping pdfId with
    | .error e => .error e
    | .ok previousLab =>
      match cfLoop pdfMapping ali 0 0 previousLab [] with
      | .error e => .error e
      | .ok (start, previousLab, cfs) =>
        .ok (cfs ++ [(previousLab, (start + (ali.length - 1)) / 2)])

/-- Lines 54-60 for one utterance: the features and the phone number kept for every token. -/
def extractUtt {V : Type} (uttFea : List V) (ali : List ℕ) (pdfMapping : List (ℕ × String))
    (phoneMapping : List (String × ℕ)) : Except Err (List (V × ℕ)) :=
  match getCf ali pdfMapping with
  | .error e => .error e
  | .ok cfs => Eval.listComp (fun c =>
      match uttFea[c.2]? with
      | none => .error .indexError
      | some x => match dictGet phoneMapping c.1 with
        | .error e => .error e
        | .ok k => .ok (x, k)) cfs

/-! ## `features-stats.py` -/

section

variable {F : Type} [Field F]

/-- `x.sum(axis=0)` for an array with `dim` columns. -/
def colSums (dim : ℕ) (rows : List (List F)) : List F :=
  (List.range dim).map fun j => (rows.map fun r => r.getD j 0).sum

/-- `tot += v` for arrays: equal sizes, or one value broadcast over `tot`. -/
def addInPlace (tot v : List F) : Except Err (List F) :=
  if v.length = tot.length then .ok (List.zipWith (· + ·) tot v)
  else match v with
    | [x] => .ok (tot.map (· + x))
    | _ => .error .valueError

/-- The loop of `accumulate`, lines 20-25: utterances are `(number of columns, rows)`. -/
def statsLoop : List (ℕ × List (List F)) → List F → List F → ℕ → Except Err (List F × List F × ℕ)
  | [], totSum, totSquareSum, totCounts => .ok (totSum, totSquareSum, totCounts)
  | (dim, rows) :: feats, totSum, totSquareSum, totCounts =>
    match addInPlace totSum (colSums dim rows),
        addInPlace totSquareSum (colSums dim (rows.map fun r => r.map (· ^ 2))) with
    | .ok s, .ok q => statsLoop feats s q (totCounts + rows.length)
    | .error e, _ => .error e
    | _, .error e => .error e

/-- `accumulate`, lines 14-28. With no frame at all numpy divides by zero and gives NaN, the model gives zeros:
the theorems ask for a frame. -/
def featsStats (feats : List (ℕ × List (List F))) : Except Err (List F × List F × ℕ) :=
  match feats with
  | [] => .error .indexError
  | (dim, _) :: _ =>
    match statsLoop feats (List.replicate dim 0) (List.replicate dim 0) 0 with
    | .error e => .error e
    | .ok (totSum, totSquareSum, totCounts) =>
      let mean := totSum.map (· / (totCounts : F))
      let var := List.zipWith (fun q m => q / (totCounts : F) - m ^ 2) totSquareSum mean
      .ok (mean, var, totCounts)

end

/-! ## `pdf2unit.py` -/

/-- `read_mapping`, lines 8-19, with `prev_unit` as argument. -/
def readMapping : List (List String) → String → List (String × String) → List String →
    Except Err (List (String × String) × List String)
  | [], _, mapping, startPdfs => .ok (mapping, startPdfs)
  | (pdf :: unit :: _) :: lines, prevUnit, mapping, startPdfs =>
    if unit ≠ prevUnit then readMapping lines unit (dictSet mapping pdf unit) (startPdfs ++ [pdf])
    else readMapping lines prevUnit (dictSet mapping pdf unit) startPdfs
  | _ :: _, _, _, _ => .error .indexError

/-- The loop of `convert_state_to_phone`, lines 32-34: `prev` is `pdf_ids[i-1]`. -/
def unitLoop (startPdfs : List String) (mapping : List (String × String)) :
    String → List String → List String → Except Err (List String)
  | _, [], units => .ok units
  | prev, pdf :: pdfs, units =>
    if pdf ≠ prev ∧ pdf ∈ startPdfs then
      match dictGet mapping pdf with
      | .error e => .error e
      | .ok u => unitLoop startPdfs mapping pdf pdfs (units ++ [u])
    else unitLoop startPdfs mapping pdf pdfs units

/-- `convert_state_to_phone`, lines 21-35. -/
def stateToUnit (pdfIds startPdfs : List String) (mapping : List (String × String)) :
    Except Err (List String) :=
  match pdfIds with
  | [] => .error .indexError
  | pdf :: pdfs =>
    match dictGet mapping pdf with
    | .error e => .error e
    | .ok u => unitLoop startPdfs mapping pdf pdfs [u]

/-- One line of the standard input, lines 49-56: the fields printed, `none` for `sys.exit`. -/
def pdf2unitLine (phoneLevel : Bool) (mapping : List (String × String)) (startPdfs : List String)
    (tokens : List String) : Except Err (Option (List String)) :=
  match tokens with
  | [] => .ok none
  | [_] => .ok none
  | uttid :: pdfs =>
    match Eval.listComp (dictGet mapping) pdfs with
    | .error e => .error e
    | .ok phones =>
      if phoneLevel then
        match stateToUnit pdfs startPdfs mapping with
        | .error e => .error e
        | .ok phones => .ok (some (uttid :: phones))
      else .ok (some (uttid :: phones))

/-! ## `convert_states_to_phone.py` -/

/-- The loop of `convert_state_to_phone`, lines 30-32: `cur` is `state_ids[i]`, the rest begins with
`state_ids[i+1]`. -/
def phoneLoop (endStates : List ℕ) (statePhone : List (ℕ × String)) :
    ℕ → List ℕ → List String → Except Err (List String)
  | cur, [], phones =>
    match dictGet statePhone cur with
    | .error e => .error e
    | .ok p => .ok (phones ++ [p])
  | cur, next :: states, phones =>
    if cur ≠ next ∧ cur ∈ endStates then
      match dictGet statePhone cur with
      | .error e => .error e
      | .ok p => phoneLoop endStates statePhone next states (phones ++ [p])
    else phoneLoop endStates statePhone next states phones

/-- `convert_state_to_phone`, lines 29-34. -/
def stateToPhone (stateIds endStates : List ℕ) (statePhone : List (ℕ × String)) : Except Err (List String) :=
  match stateIds with
  | [] => .error .indexError
  | s :: states => phoneLoop endStates statePhone s states []

/-- `dict_state_phone`, lines 55-59. -/
def statePhoneMap (phoneMap : List (ℕ × String)) (n : ℕ) : List (ℕ × String) :=
  phoneMap.foldl (fun d p => (List.range n).foldl (fun d j => dictSet d (p.1 * n + j) p.2) d) []

/-- `end_states`, lines 61-62. -/
def endStates (statePhone : List (ℕ × String)) (n : ℕ) : List ℕ :=
  ((statePhone.map Prod.fst).filter fun i => i % n = 0).map fun i => i + n - 1

/-- One line of the states file, lines 66-70. -/
def statesLine (phoneMap : List (ℕ × String)) (n : ℕ) (stateIds : List ℕ) : Except Err (List String) :=
  stateToPhone stateIds (endStates (statePhoneMap phoneMap n) n) (statePhoneMap phoneMap n)

/-! ## `prepare_phone_trans.py` -/

/-- `lexicon`, lines 16-20: the pronunciation as the list of its phones. -/
def loadLexicon : List (List String) → List (String × List String) → Except Err (List (String × List String))
  | [], lexicon => .ok lexicon
  | [] :: _, _ => .error .indexError
  | (word :: phones) :: lines, lexicon => loadLexicon lines (dictSet lexicon word phones)

/-- Lines 22-35: the lines printed (their fields); a line with an unknown word is skipped. -/
def phoneTrans (lexicon : List (String × List String)) (addSil : Bool) :
    List (List String) → Except Err (List (List String))
  | [] => .ok []
  | [] :: _ => .error .indexError
  | (uttid :: words) :: lines =>
    match phoneTrans lexicon addSil lines with
    | .error e => .error e
    | .ok out =>
      match Eval.listComp (dictGet lexicon) words with
      | .error _ => .ok out
      | .ok prons =>
        if addSil then .ok ((uttid :: "sil" :: (prons.flatten ++ ["sil"])) :: out)
        else .ok ((uttid :: prons.flatten) :: out)

/-! ## `convert_align.py` -/

/-- Lines 17-22 for one file: `[unit] * n` is empty for negative `n`. -/
def framesOf (segs : List (ℤ × ℤ × String)) : List String :=
  segs.flatMap fun s => List.replicate (s.2.1 - s.1 + 1).toNat ("au" ++ s.2.2)

end Verif.Scripts
