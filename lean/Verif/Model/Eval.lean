import Verif.Model.Pipeline
import Verif.Model.Scoring
import Mathlib.Data.Rat.Defs
import Mathlib.Data.String.Basic

/-!
# Evaluation scripts of the recipes: transcriptions, mappings and error rates

* `recipes/aud/utils/ter.py` (all but the printing of examples), identical to `recipes/hshmm/utils/ter.py`
* `recipes/aud/utils/maptrans.py`, `maxoverlap_mapping.py` (identical in `recipes/hshmm/utils`)
* `recipes/timit_v2/utils/score.py` 6-97

A text file is the list of its lines, a line the list of its fields (`line.strip().split()`).  Dictionaries
are association lists in insertion order.  The rounding of the printed rates is not modelled.
-/

namespace Verif.Eval

open Verif Pipeline Scoring

/-- A transcription: the tokens of every utterance. -/
abbrev Transcript := List (String × List String)

/-- `load_transcript`, `ter.py` 12-18, `maptrans.py` 9-15, `maxoverlap_mapping.py` 15-21, and `read_text`,
`score.py` 6-13: an empty line raises `IndexError`. -/
def loadTranscript : List (List String) → Transcript → Except Err Transcript
  | [], tr => .ok tr
  | [] :: _, _ => .error .indexError
  | (utt :: tokens) :: lines, tr => loadTranscript lines (dictSet tr utt tokens)

/-- `load_mapping`, `ter.py` 69-78 and `maptrans.py` 18-27: lines that do not have two fields are
ignored. -/
def loadMapping : List (List String) → List (String × String) → List (String × String)
  | [], mapping => mapping
  | [p1, p2] :: lines, mapping => loadMapping lines (dictSet mapping p1 p2)
  | _ :: lines, mapping => loadMapping lines mapping

/-! ## `maptrans.py` -/

/-- The loop of `maptrans.py` 33-42. -/
def mapTokens (mapping : List (String × String)) (unk : String) :
    List String → List String → Except Err (List String)
  | [], tmp => .ok tmp
  | token :: ts, tmp =>
    match dictGet mapping token with
    | .ok newToken => mapTokens mapping unk ts (tmp ++ [newToken])
    | .error err => if unk ≠ "" then mapTokens mapping unk ts (tmp ++ [unk]) else .error err

/-- `map_trans`, `maptrans.py` 30-44. -/
def mapTransUnk (mapping : List (String × String)) (unk : String) : Transcript → Transcript → Except Err Transcript
  | [], newTrans => .ok newTrans
  | (utt, uttTrans) :: tr, newTrans =>
    match mapTokens mapping unk uttTrans [] with
    | .error e => .error e
    | .ok tmp => mapTransUnk mapping unk tr (dictSet newTrans utt tmp)

/-! ## `ter.py` -/

/-- The loop of `ter.py` 84-90: unknown tokens are dropped. -/
def mapTokensDrop (mapping : List (String × String)) : List String → List String → List String
  | [], tmp => tmp
  | token :: ts, tmp =>
    match dictGet mapping token with
    | .ok newToken => mapTokensDrop mapping ts (tmp ++ [newToken])
    | .error _ => mapTokensDrop mapping ts tmp

/-- `map_trans`, `ter.py` 81-92. -/
def mapTransDrop (mapping : List (String × String)) : Transcript → Transcript → Transcript
  | [], newTrans => newTrans
  | (utt, uttTrans) :: tr, newTrans =>
    mapTransDrop mapping tr (dictSet newTrans utt (mapTokensDrop mapping uttTrans []))

/-- The merging of repetitions, `ter.py` 113-116. -/
def mergeTrans (tr : Transcript) : Transcript := tr.map fun p => (p.1, collapse p.2)

/-- What a scoring script ends with: a number, a number that is not finite (numpy divides by zero with a
warning), or `sys.exit` with a message. -/
inductive Score
  | value (q : ℚ)
  | notFinite
  | refused
deriving DecidableEq

/-- `acc_wer`, `nwords` and whether `acc_wer` is a number of numpy. -/
structure ErrAcc where
  errs : ℕ
  words : ℕ
  numpy : Bool
deriving DecidableEq

/-- The loop of `ter.py` 127-133. -/
def terLoop (hyp : Transcript) : Transcript → ErrAcc → ErrAcc
  | [], acc => acc
  | (utt, refT) :: ref, acc =>
    match dictGet hyp utt with
    | .ok hypT => terLoop hyp ref ⟨acc.errs + wer refT hypT, acc.words + refT.length, true⟩
    | .error _ => terLoop hyp ref acc

/-- `100 * acc_wer / nwords`, `ter.py` 135 and `score.py` 95: python integers raise, numpy numbers do
not. -/
def rate (acc : ErrAcc) : Except Err Score :=
  if acc.words = 0 then (if acc.numpy then .ok .notFinite else .error .zeroDivision)
  else .ok (.value (100 * acc.errs / acc.words))

/-- `ter.py` 108-135. `noRepeatOption` tells if `--no-repeat` was given: the option stores `False` in
`args.no_repeat`, whose default is `True` (lines 99-100). -/
def terMain (mapping : Option (List (String × String))) (noRepeatOption : Bool) (ref hyp : Transcript) :
    Except Err Score :=
  let argsNoRepeat := !noRepeatOption
  let rh := match mapping with
    | none => (ref, hyp)
    | some m => (mapTransDrop m ref [], mapTransDrop m hyp [])
  let rh := if !argsNoRepeat then (mergeTrans rh.1, mergeTrans rh.2) else rh
  rate (terLoop rh.2 rh.1 ⟨0, 0, false⟩)

/-! ## `score.py` -/

/-- `[f(i) for i in text]` where `f` can raise. -/
def listComp {α β : Type} (f : α → Except Err β) : List α → Except Err (List β)
  | [] => .ok []
  | x :: xs =>
    match f x with
    | .error e => .error e
    | .ok y =>
      match listComp f xs with
      | .error e => .error e
      | .ok ys => .ok (y :: ys)

/-- The list comprehension of `score.py` 33-34. -/
def mapRemove (mapping : List (String × String)) (remove : List String) :
    List String → Except Err (List String)
  | [] => .ok []
  | i :: text =>
    if i ∉ remove then
      match dictGet mapping i with
      | .error e => .error e
      | .ok p =>
        match mapRemove mapping remove text with
        | .error e => .error e
        | .ok rest => .ok (if p ∉ remove then p :: rest else rest)
    else mapRemove mapping remove text

/-- `filter_text`, `score.py` 27-49; `remove` is the list of fields of the option. -/
def filterText (remove : Option (List String)) (duplicate : String)
    (phoneMap : Option (List (String × String))) (text : List String) : Except Err (List String) :=
  let filtered : Except Err (List String) :=
    match phoneMap, remove with
    | some m, some r => mapRemove m r text
    | some m, none => listComp (dictGet m) text
    | none, some r => .ok (text.filter fun i => i ∉ r)
    | none, none => .ok text
  match filtered with
  | .error e => .error e
  | .ok t => .ok (if duplicate = "no" then dedup t else t)

/-- The loop of `score.py` 74-94: `tot_err` becomes a number of numpy with the first utterance. -/
def scoreLoop (remove : Option (List String)) (duplicate : String)
    (phoneMap : Option (List (String × String))) (allRef allHyp : Transcript) :
    List String → ErrAcc → Except Err ErrAcc
  | [], acc => .ok acc
  | k :: ks, acc =>
    match dictGet allRef k, dictGet allHyp k with
    | .ok r, .ok h =>
      match filterText remove duplicate phoneMap r, filterText remove duplicate phoneMap h with
      | .ok ref, .ok hyp =>
        scoreLoop remove duplicate phoneMap allRef allHyp ks
          ⟨acc.errs + timitErrors ref hyp, acc.words + ref.length, true⟩
      | .error e, _ => .error e
      | _, .error e => .error e
    | .error e, _ => .error e
    | _, .error e => .error e

/-- `score.py` 66-97. -/
def scoreMain (remove : Option (List String)) (duplicate : String)
    (phoneMap : Option (List (String × String))) (allRef allHyp : Transcript) : Except Err Score :=
  if (allRef.map Prod.fst).insertionSort (· ≤ ·) ≠ (allHyp.map Prod.fst).insertionSort (· ≤ ·) then
    .ok .refused
  else
    match scoreLoop remove duplicate phoneMap allRef allHyp (allRef.map Prod.fst) ⟨0, 0, false⟩ with
    | .error e => .error e
    | .ok acc => rate acc

/-! ## `maxoverlap_mapping.py` -/

/-- `counts`, a `defaultdict` of `defaultdict`s. -/
abbrev Counts := List (String × List (String × ℕ))

/-- `d[k]` for a `defaultdict` whose default is `v`; the entry made by reading is overwritten by the
assignment that follows. -/
def getOr {β : Type} (d : List (String × β)) (k : String) (v : β) : β :=
  match d.find? (fun p => p.1 = k) with
  | some p => p.2
  | none => v

/-- `counts[hyp_unit][ref_unit] += 1`, `maxoverlap_mapping.py` 38. -/
def bump (counts : Counts) (hypUnit refUnit : String) : Counts :=
  let d := getOr counts hypUnit []
  dictSet counts hypUnit (dictSet d refUnit (getOr d refUnit 0 + 1))

/-- `maxoverlap_mapping.py` 35-38. -/
def overlapCounts (hypAlign : Transcript) : Transcript → Counts → Except Err Counts
  | [], counts => .ok counts
  | (utt, refUnits) :: ref, counts =>
    match dictGet hypAlign utt with
    | .error e => .error e
    | .ok hypUnits =>
      overlapCounts hypAlign ref
        ((refUnits.zip hypUnits).foldl (fun c p => bump c p.2 p.1) counts)

/-- `max(label_counts, key=label_counts.get)`: the first of the largest; an empty dictionary raises
`ValueError`. -/
def maxKey : List (String × ℕ) → Except Err String
  | [] => .error .valueError
  | p :: ps => .ok (ps.foldl (fun best q => if best.2 < q.2 then q else best) p).1

/-- `mapping`, `maxoverlap_mapping.py` 49-50. -/
def overlapMapping (counts : Counts) : Except Err (List (String × String)) :=
  listComp (fun c => match maxKey c.2 with | .error e => .error e | .ok k => .ok (c.1, k)) counts

/-- `maxoverlap_mapping.py` 32-54 without `--counts`: the lines written, as their fields. -/
def maxOverlap (refAlign hypAlign : Transcript) : Except Err (List (List String)) :=
  match overlapCounts hypAlign refAlign [] with
  | .error e => .error e
  | .ok counts =>
    match overlapMapping counts with
    | .error e => .error e
    | .ok mapping => .ok (mapping.map fun p => [p.1, p.2])

end Verif.Eval
