import Verif.Model.Pipeline
import Verif.Model.Eval
import Mathlib.Data.List.Sort
import Mathlib.Data.List.Lex
import Mathlib.Data.Char

/-!
# From the features of utterances to a data set

* `beer/cli/subcommands/features/extract.py` 169-171 (one file for each utterance)
* `beer/cli/subcommands/features/archive.py` 18-26
* `beer/cli/dataset.py`

Names are lists of characters, without `/`. A directory is the list of its files in the order `glob` gives them. A
zip archive is the list of its entries; it may have several with the same name, reading gives the last one. The
features are opaque.
-/

namespace Verif.Dataset

open Verif Pipeline

variable {F : Type}

abbrev Name := List Char

/-- `.npy`. -/
def npy : Name := ['.', 'n', 'p', 'y']

/-- The name of the file `np.save` writes: the extension is added unless it is there. -/
def saveName (path : Name) : Name := if npy <:+ path then path else path ++ npy

/-- Files written by `features extract` (a file written again replaces the previous one). -/
def extractDir : List (Name × F) → List (Name × F) → List (Name × F)
  | [], dir => dir
  | (uttid, features) :: utts, dir => extractDir utts (dictSet dir (saveName uttid) features)

/-- `s.replace(pat, '')`, from left to right: `skip` characters are still to be removed. -/
def removeAux (pat : Name) : ℕ → Name → Name
  | _, [] => []
  | skip + 1, _ :: cs => removeAux pat skip cs
  | 0, c :: cs => if pat <+: c :: cs then removeAux pat (pat.length - 1) cs else c :: removeAux pat 0 cs

/-- `s.replace(pat, '')`. -/
def remove (pat : Name) (s : Name) : Name := removeAux pat 0 s

/-- `glob.glob('*' + extension)`: names that begin with a dot are left out. -/
def matches_ (ext name : Name) : Bool := decide (ext <:+ name) && name.head? != some '.'

/-- `features archive`, `archive.py` 20-25: the entries of the archive. -/
def archive (ext : Name) (dir : List (Name × F)) : List (Name × F) :=
  (dir.filter fun f => matches_ ext f.1).map fun f => (remove ('.' :: ext) f.1, f.2)

/-- The last entry with a name. -/
def entry (zip : List (Name × F)) (name : Name) : Option F := (zip.reverse.find? fun e => e.1 = name).map Prod.snd

/-- `np.load(archive).files`: the entries without the extension `.npy`. -/
def files (zip : List (Name × F)) : List Name :=
  zip.map fun e => if npy <:+ e.1 then e.1.take (e.1.length - 4) else e.1

/-- `np.load(archive)[key]`. -/
def load (zip : List (Name × F)) (key : Name) : Except Err F :=
  match entry zip key with
  | some f => .ok f
  | none =>
    match entry zip (key ++ npy) with
    | some f => .ok f
    | none => .error .keyError

/-- `Dataset.__len__`, `dataset.py` 58-60. -/
def length (zip : List (Name × F)) : ℕ := (files zip).length

/-- The identifiers `utterances` iterates on, `dataset.py` 73-75: sorted, then shuffled by `shuffle` if given. -/
def uttsid (zip : List (Name × F)) (shuffle : Option (List Name → List Name)) : List Name :=
  let sorted := (files zip).insertionSort (· ≤ ·)
  match shuffle with
  | none => sorted
  | some f => f sorted

/-- What `__next__` gives. -/
inductive Step (F : Type) where
  | stop
  | yield (uttid : Name) (features : F)

/-- `UtteranceIterator.__next__`, `dataset.py` 28-35: the result and the new index. -/
def next (utts : List Name) (zip : List (Name × F)) (idx : ℕ) : Except Err (Step F × ℕ) :=
  match utts[idx]? with
  | none => .ok (.stop, idx)
  | some uttid =>
    match load zip uttid with
    | .error e => .error e
    | .ok f => .ok (.yield uttid f, idx + 1)

/-- `for utt in dataset.utterances(…)`, at most `fuel` calls: the utterances, `none` when the loop has not ended. -/
def loop (utts : List Name) (zip : List (Name × F)) : ℕ → ℕ → Except Err (Option (List (Name × F)))
  | 0, _ => .ok none
  | fuel + 1, idx =>
    match next utts zip idx with
    | .error e => .error e
    | .ok (.stop, _) => .ok (some [])
    | .ok (.yield u f, idx') =>
      match loop utts zip fuel idx' with
      | .error e => .error e
      | .ok none => .ok none
      | .ok (some l) => .ok (some ((u, f) :: l))

/-- `Dataset.__getitem__`, `dataset.py` 78-80. -/
def getitem (zip : List (Name × F)) (key : Name) : Except Err (Name × F) :=
  match load zip key with
  | .error e => .error e
  | .ok f => .ok (key, f)

end Verif.Dataset
