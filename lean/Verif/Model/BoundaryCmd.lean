import Verif.Model.Eval

/-!
# The script which scores the boundaries of the units

`recipes/aud/utils/score_boundaries.py` 44-117 (the boundaries and the hits of an utterance, lines 20-41, are in
`Model/Scoring`).  Text files, dictionaries and transcriptions as in `Model/Eval`; the ratios are exact, their rounding
when printed is not modelled.  What was printed before an exception is not part of the result.
-/

namespace Verif.BoundaryCmd

open Verif Pipeline Scoring Eval

/-- `'<oov_' + str(oov_i) + '>'`, `score_boundaries.py` 63. -/
def oovName (i : ℕ) : String := "<oov_" ++ Nat.repr i ++ ">"

/-- The loop over the tokens of an utterance, `score_boundaries.py` 61-66: an unknown token is added to the mapping.
Returns the mapping, the counter and the new tokens. -/
def mapTokensOov : List String → List (String × String) → ℕ → List String →
    List (String × String) × ℕ × List String
  | [], mapping, oov, tmp => (mapping, oov, tmp)
  | token :: ts, mapping, oov, tmp =>
    match dictGet mapping token with
    | .ok newToken => mapTokensOov ts mapping oov (tmp ++ [newToken])
    | .error _ => mapTokensOov ts (dictSet mapping token (oovName oov)) (oov + 1) (tmp ++ [oovName oov])

/-- The loop over the utterances, `score_boundaries.py` 59-67. -/
def mapTransOovLoop : Transcript → List (String × String) → ℕ → Transcript → List (String × String) × Transcript
  | [], mapping, _, newTrans => (mapping, newTrans)
  | (utt, uttTrans) :: tr, mapping, oov, newTrans =>
    let r := mapTokensOov uttTrans mapping oov []
    mapTransOovLoop tr r.1 r.2.1 (dictSet newTrans utt r.2.2)

/-- `map_trans`, `score_boundaries.py` 56-68: the new transcription, and the dictionary `mapfile`, which is modified. -/
def mapTransOov (tr : Transcript) (mapping : List (String × String)) : List (String × String) × Transcript :=
  mapTransOovLoop tr mapping 1 []

/-- `hits`, `ref_bounds_count`, `hyp_bounds_count` and the names of utterances which were printed. -/
structure BAcc where
  hits : ℕ
  refCount : ℕ
  hypCount : ℕ
  printed : List String
deriving DecidableEq

/-- The loop over the utterances of the reference, `score_boundaries.py` 93-101. -/
def boundLoop (hyp : Transcript) (delta : ℤ) : Transcript → BAcc → Except Err BAcc
  | [], acc => .ok acc
  | (utt, refT) :: ref, acc =>
    match boundaries refT with
    | .error e => .error e
    | .ok refBounds =>
      match dictGet hyp utt with
      | .error e => .error e
      | .ok hypT =>
        match boundaries hypT with
        | .error e => .error e
        | .ok hypBounds =>
          match getHits refBounds hypBounds delta with
          | .error e => .error e
          | .ok hits =>
            boundLoop hyp delta ref ⟨acc.hits + hits, acc.refCount + refBounds.length, acc.hypCount + hypBounds.length,
              if refBounds.length ≠ hypBounds.length then acc.printed ++ [utt] else acc.printed⟩

/-- What the script prints: names of utterances, then the three ratios (times 100). -/
structure BReport where
  printed : List String
  recall : ℚ
  prec : ℚ
  fscore : ℚ
deriving DecidableEq

/-- `score_boundaries.py` 103-117. -/
def report (acc : BAcc) : BReport :=
  let recall : ℚ := if acc.refCount > 0 then acc.hits / acc.refCount else 0
  let prec : ℚ := if acc.hypCount > 0 then acc.hits / acc.hypCount else 0
  ⟨acc.printed, recall, prec, if recall + prec > 0 then 2 * (prec * recall) / (prec + recall) else 0⟩

/-- `score_boundaries.py` 90-117. -/
def boundScore (delta : ℤ) (ref hyp : Transcript) : Except Err BReport :=
  match boundLoop hyp delta ref ⟨0, 0, 0, []⟩ with
  | .error e => .error e
  | .ok acc => .ok (report acc)

/-- `main`, `score_boundaries.py` 72-117; `mapping` is the content of the file of the option. -/
def boundMain (delta : ℤ) (mapping : Option (List (List String))) (refFile hypFile : List (List String)) :
    Except Err BReport :=
  match loadTranscript refFile [] with
  | .error e => .error e
  | .ok ref =>
    match loadTranscript hypFile [] with
    | .error e => .error e
    | .ok hyp =>
      match mapping with
      | none => boundScore delta ref hyp
      | some lines =>
        let h := mapTransOov hyp (loadMapping lines [])
        let r := mapTransOov ref h.1
        boundScore delta r.2 h.2

end Verif.BoundaryCmd
