import Verif.Model.Eval

/-!
# The alternative script which scores the boundaries of the units

`recipes/aud/utils/score_boundaries2.py` 66-101 (the boundaries and the hits of an utterance, lines 18-36, are in
`Model/Scoring`; the reading of the files, lines 10-16 and 39-48, and `map_trans`, lines 51-62, are line by line those of `ter.py`,
in `Model/Eval`).  Ratios are exact, their rounding when printed is not modelled.  `misses` (line 92) is never read.
-/

namespace Verif.Boundary2Cmd

open Verif Pipeline Scoring Eval

/-- `hits`, `ref_bounds_count`, `hyp_bounds_count`, `score_boundaries2.py` 84-87. -/
structure B2Acc where
  hits : ℕ
  refCount : ℕ
  hypCount : ℕ
deriving DecidableEq

/-- The loop over the utterances of the reference, `score_boundaries2.py` 88-94. -/
def bound2Loop (hyp : Transcript) (delta : ℤ) : Transcript → B2Acc → Except Err B2Acc
  | [], acc => .ok acc
  | (utt, refT) :: ref, acc =>
    match boundaries refT with
    | .error e => .error e
    | .ok refBounds =>
      match dictGet hyp utt with
      | .error e => .error e
      | .ok hypT =>
        match boundaries hypT with
        | .error e => .error e
        | .ok hypBounds =>
          match getHits2 refBounds hypBounds delta with
          | .error e => .error e
          | .ok hits =>
            bound2Loop hyp delta ref ⟨acc.hits + hits, acc.refCount + refBounds.length, acc.hypCount + hypBounds.length⟩

/-- What the script prints: the three ratios (times 100). -/
structure B2Report where
  recall : ℚ
  prec : ℚ
  fscore : ℚ
deriving DecidableEq

/-- `score_boundaries2.py` 96-98: three divisions of Python numbers. -/
def report2 (acc : B2Acc) : Except Err B2Report :=
  if acc.refCount = 0 then .error .zeroDivision
  else
    let recall : ℚ := acc.hits / acc.refCount
    if acc.hypCount = 0 then .error .zeroDivision
    else
      let prec : ℚ := acc.hits / acc.hypCount
      if prec + recall = 0 then .error .zeroDivision
      else .ok ⟨recall, prec, 2 * (prec * recall) / (prec + recall)⟩

/-- `score_boundaries2.py` 84-98. -/
def bound2Score (delta : ℤ) (ref hyp : Transcript) : Except Err B2Report :=
  match bound2Loop hyp delta ref ⟨0, 0, 0⟩ with
  | .error e => .error e
  | .ok acc => report2 acc

/-- `main`, `score_boundaries2.py` 66-101; `mapping` is the content of the file of the option. -/
def bound2Main (delta : ℤ) (mapping : Option (List (List String))) (refFile hypFile : List (List String)) :
    Except Err B2Report :=
  match loadTranscript refFile [] with
  | .error e => .error e
  | .ok ref =>
    match loadTranscript hypFile [] with
    | .error e => .error e
    | .ok hyp =>
      match mapping with
      | none => bound2Score delta ref hyp
      | some lines =>
        bound2Score delta (mapTransDrop (loadMapping lines []) ref []) (mapTransDrop (loadMapping lines []) hyp [])

end Verif.Boundary2Cmd
