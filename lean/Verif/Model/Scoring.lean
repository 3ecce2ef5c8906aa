import Verif.Model.Py
import Mathlib.Data.List.Range
import Mathlib.Algebra.Order.Group.Unbundled.Abs
import Mathlib.Algebra.Order.Group.Int
import Mathlib.Data.List.MinMax

/-!
# Scoring scripts of the recipes

* `recipes/aud/utils/ter.py:21-66` (`wer`), identical to `recipes/hshmm/utils/ter.py`
* `recipes/timit_v2/utils/score.py:27-49, 80-92` (`filter_text`, the dynamic program of `main`)
* `recipes/aud/utils/score_boundaries.py:20-41` and `score_boundaries2.py:18-36`
* `recipes/aud/utils/ali2trans.py:13-16`, `convert-ali-to-best-path.py:46-49` (`itertools.groupby`)

Tables are functions of two indices, modified in place by the loops; numpy integer arrays are lists of
integers.  Reading of the files and printing are not modelled.
-/

namespace Verif.Scoring

variable {α : Type}

/-! ## Edit distances -/

/-- `d[i][j] = x`. -/
def setCell (d : ℕ → ℕ → ℕ) (i j x : ℕ) : ℕ → ℕ → ℕ :=
  fun i' j' => if i' = i ∧ j' = j then x else d i' j'

/-- `for i in range(1, m+1): for j in range(1, n+1): d[i][j] = f(d, i, j)`. -/
def fill (f : (ℕ → ℕ → ℕ) → ℕ → ℕ → ℕ) (m n : ℕ) (d : ℕ → ℕ → ℕ) : ℕ → ℕ → ℕ :=
  (List.range m).foldl (fun d i =>
    (List.range n).foldl (fun d j => setCell d (i + 1) (j + 1) (f d (i + 1) (j + 1))) d) d

/-- `ter.py:45-53` initialisation of the table (zeros, then the borders). -/
def terInit (m n : ℕ) : ℕ → ℕ → ℕ :=
  (List.range (m + 1)).foldl (fun d i =>
    (List.range (n + 1)).foldl (fun d j =>
      if i = 0 then setCell d 0 j j else if j = 0 then setCell d i 0 i else d) d) (fun _ _ => 0)

/-- `ter.py:55-64` the body of the loops (the indices are in range, so the default of `getD` is never
used). -/
def terCell [DecidableEq α] (r h : List α) (d : ℕ → ℕ → ℕ) (i j : ℕ) : ℕ :=
  if r[i - 1]? = h[j - 1]? then d (i - 1) (j - 1)
  else
    let substitution := d (i - 1) (j - 1) + 1
    let insertion := d i (j - 1) + 1
    let deletion := d (i - 1) j + 1
    min (min substitution insertion) deletion

/-- `ter.py:21-66` `wer`. -/
def wer [DecidableEq α] (r h : List α) : ℕ :=
  fill (terCell r h) r.length h.length (terInit r.length h.length) r.length h.length

/-- `score.py:81-84` initialisation; `mtrix[j, i]` is `d i j`. -/
def timitInit (m n : ℕ) : ℕ → ℕ → ℕ :=
  (List.range (n + 1)).foldl (fun d j => setCell d 0 j j)
    ((List.range (m + 1)).foldl (fun d i => setCell d i 0 i) (fun _ _ => 0))

/-- `score.py:87-91` the body of the loops. -/
def timitCell [DecidableEq α] (r h : List α) (d : ℕ → ℕ → ℕ) (i j : ℕ) : ℕ :=
  let insErr := d i (j - 1) + 1
  let delErr := d (i - 1) j + 1
  let subErr := d (i - 1) (j - 1) + (if r[i - 1]? ≠ h[j - 1]? then 1 else 0)
  min (min insErr delErr) subErr

/-- `score.py:80-92` number of errors of one utterance. -/
def timitErrors [DecidableEq α] (r h : List α) : ℕ :=
  fill (timitCell r h) r.length h.length (timitInit r.length h.length) r.length h.length

/-! ## Collapsing of repeated labels -/

/-- `[elem for i, elem in enumerate(text) if i == 0 or text[i-1] != elem]`
(`score.py:44-46`). -/
def dedup [DecidableEq α] (text : List α) : List α :=
  (text.zipIdx.filter (fun p => p.2 = 0 ∨ text[p.2 - 1]? ≠ some p.1)).map Prod.fst

/-- `[x[0] for x in groupby(seq)]`: the state of the iterator is the current key. -/
def groupbyKeys [DecidableEq α] : List α → Option α → List α
  | [], _ => []
  | x :: xs, key => if some x = key then groupbyKeys xs key else x :: groupbyKeys xs (some x)

/-- `ali2trans.py:15`, `convert-ali-to-best-path.py:49`, `ter.py:112-116`. -/
def collapse [DecidableEq α] (l : List α) : List α := groupbyKeys l none

/-! ## Boundaries -/

/-- `score_boundaries.py:20-28` the loop. -/
def boundariesLoop [DecidableEq α] : List α → α → ℤ → List ℤ
  | [], _, _ => []
  | u :: us, cur, frame =>
    if u ≠ cur then frame :: boundariesLoop us u (frame + 1) else boundariesLoop us cur (frame + 1)

/-- `score_boundaries.py:20-28`; an empty utterance is an `IndexError`. -/
def boundaries [DecidableEq α] : List α → Except Err (List ℤ)
  | [] => .error .indexError
  | u :: us => .ok (boundariesLoop us u 2)

/-- Position of the first smallest element (`argmin`) together with the value (`min`); numpy raises
`ValueError` on an empty array. -/
def argminAux : List ℤ → ℕ → (ℕ × ℤ) → (ℕ × ℤ)
  | [], _, best => best
  | x :: xs, k, best => argminAux xs (k + 1) (if x < best.2 then (k, x) else best)

/-- `diff.argmin(), diff.min()`. -/
def argmin : List ℤ → Except Err (ℕ × ℤ)
  | [] => .error .valueError
  | x :: xs => .ok (argminAux xs 1 (0, x))

/-- `score_boundaries.py:31-41` the loop over the boundaries of the hypothesis. -/
def hitsLoop (delta : ℤ) : List ℤ → List ℤ → ℕ → Except Err ℕ
  | [], _, hits => .ok hits
  | b :: bs, ref, hits =>
    match argmin (ref.map (fun r => |b - r|)) with
    | .error e => .error e
    | .ok (i, d) =>
      if d ≤ delta then hitsLoop delta bs (ref.set i 1000000) (hits + 1)
      else hitsLoop delta bs ref hits

/-- `score_boundaries.py:31-41` `get_hits`. -/
def getHits (ref hyp : List ℤ) (delta : ℤ) : Except Err ℕ := hitsLoop delta hyp ref 0

/-- `score_boundaries2.py:29-36` the loop over the reference: the array is modified while it is iterated,
at the index of the closest *hypothesis* boundary. The first argument counts the remaining iterations. -/
def hits2Loop (delta : ℤ) (hyp : List ℤ) : ℕ → ℕ → List ℤ → ℕ → Except Err ℕ
  | 0, _, _, hits => .ok hits
  | n + 1, k, ref, hits =>
    match ref[k]? with
    | none => .ok hits
    | some b =>
      match argmin (hyp.map (fun h => |b - h|)) with
      | .error e => .error e
      | .ok (i, d) =>
        if d ≤ delta then
          if i < ref.length then hits2Loop delta hyp n (k + 1) (ref.set i 1000000) (hits + 1)
          else .error .indexError
        else hits2Loop delta hyp n (k + 1) ref hits

/-- `score_boundaries2.py:29-36` `get_hits`. -/
def getHits2 (ref hyp : List ℤ) (delta : ℤ) : Except Err ℕ :=
  hits2Loop delta hyp ref.length 0 ref 0

end Verif.Scoring
