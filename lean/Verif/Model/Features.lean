import Verif.Model.Py
import Mathlib.Analysis.SpecialFunctions.Log.Basic
import Mathlib.Algebra.BigOperators.Fin
import Mathlib.Data.Nat.Log

/-!
# Feature extraction and data-set statistics

* `beer/features.py`: frequency scales 10-28, `add_deltas` 82-100, framing of `short_term_mspec` 119-143
  and `fbank` 175-200
* `beer/cli/subcommands/dataset/create.py:14-38` (`accumulate`)
-/

namespace Verif.Features

/-! ## Frequency scales, `features.py:10-28` -/

noncomputable def hz2mel (f : ℝ) : ℝ := 1127 * Real.log (1 + f / 700)
noncomputable def mel2hz (m : ℝ) : ℝ := 700 * (Real.exp (m / 1127) - 1)
noncomputable def hz2bark (f : ℝ) : ℝ := (29.81 * f) / (1960 + f) - 0.53
noncomputable def bark2hz (b : ℝ) : ℝ := (1960 * (b + 0.53)) / (29.81 - b - 0.53)

/-! ## Deltas, `features.py:82-100` -/

section Deltas
variable {K : Type} [Field K] [DecidableEq K]

/-- `dfilter = -np.arange(-wlen, wlen+1)`. -/
def rawFilter (wlen : ℕ) : List K :=
  (List.range (2 * wlen + 1)).map (fun k => -(((k : ℕ) : K) - (wlen : K)))

/-- `dfilter / (2 * dfilter.dot(dfilter))`; a zero denominator (NaN in numpy) is a value error here. -/
def deltaFilter (wlen : ℕ) : Except Err (List K) :=
  let f : List K := rawFilter wlen
  let dot := (f.map (fun x => x * x)).sum
  if 2 * dot = 0 then .error .valueError else .ok (f.map (fun x => x / (2 * dot)))

/-- `np.r_[fea[[0]].repeat(wlen, 0), fea, fea[[-1]].repeat(wlen, 0)]` for one column. -/
def pad (wlen : ℕ) (col : List K) : Except Err (List K) :=
  match col.head?, col.getLast? with
  | some x, some y => .ok (List.replicate wlen x ++ col ++ List.replicate wlen y)
  | _, _ => .error .indexError

/-- `scipy.signal.lfilter(b, 1, x)`: `y[n] = Σ_k b[k] x[n-k]`, zero before the beginning. -/
def lfilter (b x : List K) : List K :=
  (List.range x.length).map (fun n =>
    (b.zipIdx.map (fun p => if p.2 ≤ n then p.1 * x.getD (n - p.2) 0 else 0)).sum)

/-- One pass of the loop on one column. -/
def delta (wlen : ℕ) (col : List K) : Except Err (List K) :=
  match deltaFilter wlen with
  | .error e => .error e
  | .ok b =>
    match pad wlen col with
    | .error e => .error e
    | .ok x => .ok ((lfilter b x).drop (2 * wlen))

/-- The loop: each pass appends a block of columns computed from the previous block. -/
def deltasLoop : List ℕ → List (List K) → List (List K) → Except Err (List (List K))
  | [], _, acc => .ok acc
  | w :: ws, cols, acc =>
    match cols.mapM (delta w) with
    | .error e => .error e
    | .ok cols' => deltasLoop ws cols' (acc ++ cols')

/-- `features.py:82-100`; the matrix is the list of its columns. -/
def addDeltas (winlens : List ℕ) (cols : List (List K)) : Except Err (List (List K)) :=
  deltasLoop winlens cols cols

end Deltas

/-! ## Framing, `features.py:119-143` -/

/-- Number of frames, FFT length and sample index read by frame `t`, position `k`. -/
structure Framing where
  nframes : ℕ
  fftLen : ℕ
  read : ℕ → ℕ → ℕ

/-- `features.py:124-143` (`fbank` 178-200 is the same): `flen`, `frate` are the values of
`int(srate * flen)`, `int(srate * frate)`. -/
def framing (len flen frate : ℕ) : Except Err Framing :=
  if frate = 0 then .error .zeroDivision
  else
    let nframes : ℤ := ((len : ℤ) - flen).fdiv frate + 1
    if nframes < 0 then .error .valueError
    else if flen = 0 then .error .indexError
    else .ok ⟨nframes.toNat, 2 ^ (Nat.log 2 flen + 1), fun t k => t * frate + k⟩

/-! ## Statistics of a data set, `create.py:14-38` -/

/-- One utterance: a list of frames of dimension `d`. -/
abbrev Utt (d : ℕ) := List (Fin d → ℝ)

/-- State of the loop: sum, sum of squares, number of frames. -/
structure DataAcc (d : ℕ) where
  sum : Fin d → ℝ
  sqSum : Fin d → ℝ
  count : ℕ

/-- `create.py:29-34`. -/
def DataAcc.add {d : ℕ} (a : DataAcc d) (u : Utt d) : DataAcc d :=
  ⟨a.sum + u.sum, a.sqSum + (u.map (fun x => x ^ 2)).sum, a.count + u.length⟩

/-- `create.py:14-38`: `IndexError` without utterance; without frames numpy produces NaN, a value error
here. -/
noncomputable def datasetStats {d : ℕ} (utts : List (Utt d)) :
    Except Err ((Fin d → ℝ) × (Fin d → ℝ) × ℕ) :=
  if utts = [] then .error .indexError
  else
    let a := utts.foldl DataAcc.add ⟨0, 0, 0⟩
    if a.count = 0 then .error .valueError
    else
      let mean : Fin d → ℝ := fun i => a.sum i / a.count
      let var : Fin d → ℝ := fun i => a.sqSum i / a.count - mean i ^ 2
      .ok (mean, var, a.count)

end Verif.Features
