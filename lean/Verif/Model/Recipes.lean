import Verif.Model.Eval
import Mathlib.Data.String.Basic
import Mathlib.Data.List.Sort
import Mathlib.Data.List.Dedup

/-!
# Labels, transcriptions and stacked features in the recipes

* `recipes/aud/local/timit/phone_ali.py` 6-31
* `recipes/timit_v2/local/timit-norm-trans.py` 23-61 (the same file is in `recipes/aud/local/timit`)
* `recipes/timit_v2/local/timit_lang_prep.py` 18-41 and `recipes/aud/local/timit/timit_lang_prep.py` 18-44
* `recipes/timit_v2/utils/features-stack-parallel.py` 20-29
* `recipes/timit_v2/utils/prepare_trans.py` 8-34, `prepare_state_labels.py` 10-46, `prepare-spk-labels.py` 44-60

Files are lists of lines, a line is the list of its fields. `int(x)` of a field is a function `toInt` that has no value
for the fields that Python refuses. The order in which Python lists a set is an argument. Rates and products are exact.
-/

namespace Verif.Recipes

open Verif Pipeline

/-! ## `phone_ali.py` -/

/-- Lines 28-29: `int(sample * factor)`, which rounds towards zero. -/
def toFrame (frate srate : ℕ) (sample : ℤ) : ℤ := (sample * frate).tdiv srate

/-- The loop of `read_timit_labels`, lines 22-31. -/
def readLabels (toInt : String → Option ℤ) (frate srate : ℕ) : List (List String) → Except Err (List String)
  | [] => .ok []
  | [] :: rest => readLabels toInt frate srate rest
  | [a, b, label] :: rest =>
    match toInt a with
    | none => .error .valueError
    | some s =>
      match toInt b with
      | none => .error .valueError
      | some e =>
        match readLabels toInt frate srate rest with
        | .error err => .error err
        | .ok seg => .ok (List.replicate (toFrame frate srate e - toFrame frate srate s).toNat label ++ seg)
  | _ :: _ => .error .valueError

/-- `read_timit_labels`, lines 6-31. -/
def readTimitLabels (toInt : String → Option ℤ) (frate srate : ℕ) (lines : List (List String)) :
    Except Err (List String) :=
  if srate = 0 then .error .zeroDivision else readLabels toInt frate srate lines

/-! ## `timit-norm-trans.py` -/

/-- The two maps and the phones to remove. -/
structure PhoneMap where
  m60 : List (String × String) := []
  m48 : List (String × String) := []
  toRemove : List String := []

/-- A line of the map, lines 29-34: with two fields the first map is set before the `IndexError`; an empty line raises
it again in the handler. -/
def mapLine (m : PhoneMap) : List String → Except Err PhoneMap
  | [] => .error .indexError
  | [a] => .ok { m with toRemove := m.toRemove ++ [a] }
  | [a, b] => .ok { m with m60 := dictSet m.m60 a b, toRemove := m.toRemove ++ [a] }
  | a :: b :: c :: _ => .ok { m with m60 := dictSet m.m60 a b, m48 := dictSet m.m48 b c }

/-- Lines 24-41. -/
def loadMap : List (List String) → PhoneMap → Except Err PhoneMap
  | [], m => .ok m
  | l :: rest, m =>
    match mapLine m l with
    | .error e => .error e
    | .ok m' => loadMap rest m'

/-- Lines 43-47. -/
def PhoneMap.select (m : PhoneMap) (map6048 : Bool) : List (String × String) := if map6048 then m.m60 else m.m48

/-- A line of the transcription, lines 51-61. -/
def normLine (m : PhoneMap) (map6048 : Bool) : List String → Except Err (List String)
  | [] => .error .indexError
  | uttid :: toks =>
    match Eval.listComp (dictGet (m.select map6048)) (toks.filter (fun p => p ∉ m.toRemove)) with
    | .error e => .error e
    | .ok new => .ok (uttid :: new)

/-! ## `timit_lang_prep.py` -/

/-- Lines 20-27; `dict_phone_47` has the keys of `dict_map`. -/
def langLoop : List (List String) → List (String × String) → Except Err (List (String × String))
  | [], d => .ok d
  | [] :: _, _ => .error .indexError
  | (a :: l) :: rest, d =>
    if a = "q" then langLoop rest d
    else
      match l with
      | [] => .error .indexError
      | b :: l' =>
        if b = "sil" then langLoop rest d
        else
          match l' with
          | [] => .error .indexError
          | c :: _ => langLoop rest (dictSet d b c)

/-- The files that the scripts write. -/
structure LangFiles where
  /-- `phones.txt` of `timit_v2`. -/
  phones : List (String × ℕ)
  /-- `units` of `aud`. -/
  units : List (String × String)
  /-- `phones_48_to_39.txt`. -/
  map48 : List (String × String)
  /-- `phones_39.txt`. -/
  phones39 : List (String × ℕ)

/-- Lines 28-31: the list of phones without repetition, `sil` first. -/
def phone39 (d : List (String × String)) : Except Err (List String) :=
  let p := (d.map Prod.snd).dedup.insertionSort (· ≤ ·)
  if "sil" ∈ p then .ok ("sil" :: p.erase "sil") else .error .valueError

/-- Lines 33-38 and, of the script in `aud`, 33-41. -/
def langFiles (d : List (String × String)) (p39 : List String) : Except Err LangFiles :=
  let keys := (d.map Prod.fst).insertionSort (· ≤ ·)
  match Eval.listComp (fun k => (dictGet d k).map fun v => (k, v)) keys with
  | .error e => .error e
  | .ok m => .ok {
      phones := ("sil", 0) :: keys.zipIdx 1
      units := ("sil", "non-speech-unit") :: keys.map fun k => (k, if k = "epi" then "non-speech-unit" else "speech-unit")
      map48 := ("sil", "sil") :: m
      phones39 := p39.zipIdx }

/-- `main`, lines 18-41. -/
def langPrep (lines : List (List String)) : Except Err LangFiles :=
  match langLoop lines [] with
  | .error e => .error e
  | .ok d =>
    match phone39 d with
    | .error e => .error e
    | .ok p39 => langFiles d p39

/-! ## `features-stack-parallel.py` -/

/-- `stack_features`, lines 20-29: `padded[i - context: i + context + 1].reshape(-1)` for every frame. -/
def stackFeatures {α : Type} (data : List (List α)) (context : ℤ) : Except Err (List (List α)) :=
  if context = 0 then .ok data
  else
    match data.head?, data.getLast? with
    | some first, some last =>
      if context < 0 then .error .valueError
      else
        let c := context.toNat
        let padded := List.replicate c first ++ data ++ List.replicate c last
        .ok ((List.range data.length).map fun i => ((padded.drop i).take (2 * c + 1)).flatten)
    | _, _ => .error .indexError

/-! ## `prepare_trans.py` and `prepare_state_labels.py` -/

/-- `read_phonelist` of `prepare_trans.py`, lines 8-20. -/
def readPhones (toInt : String → Option ℤ) : List (List String) → List (String × ℤ) → Except Err (List (String × ℤ))
  | [], d => .ok d
  | (a :: b :: _) :: rest, d =>
    match toInt b with
    | none => .error .valueError
    | some i => readPhones toInt rest (dictSet d a i)
  | _ :: _, _ => .error .indexError

/-- `prepare_trans.py` 30-34: the transcriptions as numbers. -/
def transInt (d : List (String × ℤ)) : List (List String) → List (String × List ℤ) →
    Except Err (List (String × List ℤ))
  | [], out => .ok out
  | [] :: _, _ => .error .indexError
  | (uttid :: tokens) :: rest, out =>
    match Eval.listComp (dictGet d) tokens with
    | .error e => .error e
    | .ok ids => transInt d rest (dictSet out uttid ids)

/-- A slice `x[a:b]` with bounds that may be negative. -/
def pySlice {α : Type} (x : List α) (a b : ℤ) : List α :=
  let fix (k : ℤ) : ℕ := if k < 0 then (k + x.length).toNat else min k.toNat x.length
  (x.drop (fix a)).take (fix b - fix a)

/-- `dict_state_phone`, `prepare_state_labels.py` 37-39. `ids` are the keys of `dict_phone`. -/
def statePhone (ids : List ℤ) (n : ℕ) : List (ℤ × List ℕ) :=
  ids.map fun s => (s, pySlice (List.range (ids.length * n)) (s * n) ((s + 1) * n))

/-- `prepare_state_labels.py` 43-46 for one utterance: `np.array` refuses lists of different lengths. -/
def stateLabels (ids : List ℤ) (n : ℕ) (utt : List ℤ) : Except Err (List ℕ) :=
  match Eval.listComp (dictGet (statePhone ids n)) utt with
  | .error e => .error e
  | .ok states =>
    if ∀ s ∈ states, s.length = (states.headD []).length then .ok states.flatten else .error .valueError

/-! ## `prepare-spk-labels.py` -/

/-- `prepare-spk-labels.py` 44-49: the speakers of the lines; `list(speakers)` is any list of them without repetition. -/
def readSpeakers : List (List String) → Except Err (List (String × String))
  | [] => .ok []
  | [utt, spk] :: rest =>
    match readSpeakers rest with
    | .error e => .error e
    | .ok r => .ok ((utt, spk) :: r)
  | _ :: _ => .error .valueError

/-- Lines 51-60: the labels of the utterances and the printed list. `order` lists the speakers. -/
def spkLabels (order : List String) (lines : List (List String)) :
    Except Err (List (String × ℕ) × List (String × ℕ)) :=
  match readSpeakers lines with
  | .error e => .error e
  | .ok r => .ok (r.foldl (fun d p => dictSet d p.1 (order.idxOf p.2)) [], order.zipIdx)

end Verif.Recipes
