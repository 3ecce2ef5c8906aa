import Verif.Model.Eval
import Mathlib.Data.String.Basic
import Mathlib.Data.List.Sort

/-!
# Transcriptions of the languages of the `aud` recipe

* `recipes/aud/local/alffa/prepare_transcripts.py` 23-72
* `recipes/aud/local/google_lr/prepare_transcripts.py` 7-15, 38-89
* `recipes/aud/utils/add_prefix.py` 18-29
* `recipes/aud/utils/prepare_lang_aud.py` 14-18

Files are lists of lines, a line is the list of its fields; the directories always exist. The classes of Unicode characters
and `lower` are arguments. In the script of `google_lr` words and phones are lists of characters.
-/

namespace Verif.Transcripts

open Verif Pipeline

/-! ## `alffa/prepare_transcripts.py` -/

/-- The comprehensions of lines 23-24 and 51-52: an empty line raises `IndexError`, a later line for the same key counts.
-/
def readDict : List (List String) → List (String × List String) → Except Err (List (String × List String))
  | [], d => .ok d
  | [] :: _, _ => .error .indexError
  | (k :: v) :: rest, d => readDict rest (dictSet d k v)

/-- `'_'.join([args.lang, str(n)])`: `None` is refused. -/
def unitName (lang : Option String) (n : ℕ) : Except Err String :=
  match lang with
  | none => .error .typeError
  | some l => .ok (l ++ "_" ++ Nat.repr n)

/-- Lines 32-35. -/
def assignIds (lang : Option String) : List String → List (String × String) → Except Err (List (String × String))
  | [], d => .ok d
  | phone :: phones, d =>
    if phone ∈ d.map Prod.fst then assignIds lang phones d
    else
      match unitName lang (d.length + 1) with
      | .error e => .error e
      | .ok name => assignIds lang phones (dictSet d phone name)

/-- Lines 40-43. -/
def readIds : List (List String) → List (String × String) → Except Err (List (String × String))
  | [], d => .ok d
  | (k :: v :: _) :: rest, d => readIds rest (dictSet d k v)
  | _ :: _, _ => .error .indexError

/-- Lines 30-43: the file of the phones is made unless it exists. -/
def phoneIds (lang : Option String) (lexicon : List (String × List String)) (phonesTxt : Option (List (List String))) :
    Except Err (List (String × String)) :=
  match phonesTxt with
  | none => assignIds lang (lexicon.map Prod.snd).flatten []
  | some lines => readIds lines []

/-- Lines 58-63: the phones of a word. The name for unknown words is a string; line 65 goes over its characters. -/
def wordPhones (lang : Option String) (keepSil : Bool) (nonsil : List String) (lexicon : List (String × List String))
    (word : String) : Except Err (List String) :=
  match dictGet lexicon word with
  | .ok phones => .ok (if keepSil then phones else phones.filter (fun p => p ∈ nonsil))
  | .error _ =>
    match unitName lang 0 with
    | .error e => .error e
    | .ok name => .ok (name.toList.map Char.toString)

/-- Lines 57-69: the ids of the words, or nothing if one is missing. -/
def uttIds (lang : Option String) (keepSil : Bool) (nonsil : List String) (lexicon : List (String × List String))
    (ids : List (String × String)) : List String → Except Err (Option (List String))
  | [] => .ok (some [])
  | word :: words =>
    match wordPhones lang keepSil nonsil lexicon word with
    | .error e => .error e
    | .ok phones =>
      match Eval.listComp (dictGet ids) phones with
      | .error _ => .ok none
      | .ok l =>
        match uttIds lang keepSil nonsil lexicon ids words with
        | .error e => .error e
        | .ok none => .ok none
        | .ok (some r) => .ok (some (l ++ r))

/-- Lines 53-72. -/
def writeUtts (lang : Option String) (keepSil : Bool) (nonsil : List String) (lexicon : List (String × List String))
    (ids : List (String × String)) : List (String × List String) → Except Err (List (List String))
  | [] => .ok []
  | (utt, words) :: rest =>
    match uttIds lang keepSil nonsil lexicon ids words with
    | .error e => .error e
    | .ok r =>
      match writeUtts lang keepSil nonsil lexicon ids rest with
      | .error e => .error e
      | .ok out =>
        match r with
        | none => .ok out
        | some l => .ok ((utt :: "sil" :: (l ++ ["sil"])) :: out)

/-- `main`, lines 23-72: the phones with their ids and the lines of the transcription. `nonsilTxt` is the file
`nonsilence_phones.txt`. -/
def prepareAlffa (lang : Option String) (keepSil : Bool) (lexiconTxt : List (List String))
    (phonesTxt : Option (List (List String))) (nonsilTxt : Option (List String)) (text : List (List String)) :
    Except Err (List (String × String) × List (List String)) :=
  match readDict lexiconTxt [] with
  | .error e => .error e
  | .ok lexicon =>
    match phoneIds lang lexicon phonesTxt with
    | .error e => .error e
    | .ok ids =>
      match readDict text [] with
      | .error e => .error e
      | .ok tr =>
        match writeUtts lang keepSil (nonsilTxt.getD (ids.map Prod.fst)) lexicon ids tr with
        | .error e => .error e
        | .ok out => .ok (ids, out)

/-! ## `google_lr/prepare_transcripts.py` -/

/-- The classes of characters. -/
structure Unicode where
  combining : Char → Bool
  alnum : Char → Bool
  lower : Char → List Char

/-- `_clean`, lines 7-15. -/
def clean (u : Unicode) (diacritics : Bool) (x : List Char) : List Char :=
  (x.filter fun a => u.alnum a || (diacritics && u.combining a)).flatMap u.lower

/-- Lines 55-72: `phones` without its last element, and the last element. -/
def groupFrom (u : Unicode) : List Char → List Char → List (List Char)
  | last, [] => [last]
  | last, letter :: word =>
    if u.combining letter then groupFrom u (last ++ [letter]) word
    else if letter = 'b' ∧ last = ['g'] then groupFrom u (last ++ [letter]) word
    else last :: groupFrom u [letter] word

/-- Lines 54-72. -/
def group (u : Unicode) : List Char → List (List Char)
  | [] => []
  | c :: word => groupFrom u [c] word

/-- `''.join(sorted(phone))`. -/
def phoneKey (phone : List Char) : List Char := phone.insertionSort (· ≤ ·)

/-- Lines 78-80. -/
def addPhone (lang : String) (ids : List (List Char × String)) (phone : List Char) : List (List Char × String) :=
  if phoneKey phone ∈ ids.map Prod.fst then ids
  else dictSet ids (phoneKey phone) (lang ++ "_" ++ Nat.repr (ids.length + 1))

/-- Lines 46-82: `t`, where a word is the list of the ids that are joined with spaces. -/
def uttLoop (u : Unicode) (diacritics : Bool) (lang : String) : List (List Char) → List (List Char × String) →
    List (List String) → Except Err (List (List Char × String) × List (List String))
  | [], ids, t => .ok (ids, t)
  | word :: words, ids, t =>
    if word.head? = some '[' then
      if t ≠ [] ∧ t.getLast? ≠ some ["sil"] then uttLoop u diacritics lang words ids (t ++ [["sil"]])
      else uttLoop u diacritics lang words ids t
    else
      if clean u diacritics word = [] then uttLoop u diacritics lang words ids t
      else
        let phones := group u (clean u diacritics word)
        let ids' := phones.foldl (addPhone lang) ids
        match Eval.listComp (fun p => dictGet ids' (phoneKey p)) phones with
        | .error e => .error e
        | .ok w => uttLoop u diacritics lang words ids' (t ++ [w])

/-- Lines 83-85: the line without the name of the utterance. -/
def uttLine (addSil : Bool) (t : List (List String)) : List String :=
  (if addSil then [["sil"]] ++ t ++ [["sil"]] else t).flatten

/-- Lines 44-85. -/
def googleLoop (u : Unicode) (diacritics addSil : Bool) (lang : String) : List (String × List (List Char)) →
    List (List Char × String) → Except Err (List (List Char × String) × List (String × List String))
  | [], ids => .ok (ids, [])
  | (utt, sent) :: rest, ids =>
    match uttLoop u diacritics lang sent ids [] with
    | .error e => .error e
    | .ok (ids', t) =>
      match googleLoop u diacritics addSil lang rest ids' with
      | .error e => .error e
      | .ok (ids'', out) => .ok (ids'', (utt, uttLine addSil t) :: out)

/-- `main`, lines 41-89, after the text is read. -/
def prepareGoogle (u : Unicode) (diacritics addSil : Bool) (lang : String) (text : List (String × List (List Char))) :
    Except Err (List (List Char × String) × List (String × List String)) :=
  googleLoop u diacritics addSil lang text [("sil".toList, "sil")]

/-! ## `add_prefix.py` and `prepare_lang_aud.py` -/

/-- `add_prefix.py` 20-29 for one line. `toExclude` is the list of tokens, `['']` by default. -/
def addPrefix (toExclude : List String) (pre : String) : List String → Except Err (List String)
  | [] => .error .indexError
  | uttid :: tokens => .ok (uttid :: tokens.map fun t => if t ∈ toExclude then t else pre ++ t)

/-- `prepare_lang_aud.py` 14-18. -/
def langAud (nonSpeech : Bool) (nunits : ℤ) : List (String × String) :=
  (if nonSpeech then [("sil", "non-speech-unit")] else []) ++
    (List.range nunits.toNat).map fun i => ("au" ++ Nat.repr (i + 1), "speech-unit")

end Verif.Transcripts
