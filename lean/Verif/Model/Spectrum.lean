import Verif.Model.Features
import Verif.Model.Eval
import Mathlib.Analysis.SpecialFunctions.Trigonometric.Basic

/-!
# Spectrum, filter bank and cepstrum

`beer/features.py` 31-79 (`create_fbank`), 102-143 (`short_term_mspec`), `beer/cli/subcommands/features/extract.py`
36-40, 107-171. Exact real numbers; a signal is a function of the sample index together with its length; a division
by zero of numpy (which gives `inf` then NaN) is a value error here, as in `Model/Features`. Reading the files, the
list of utterances and the configuration file are not modelled, except for the test of unknown settings.
-/

namespace Verif.Spectrum

open Verif Real

/-! ## Short term magnitude spectrum -/

/-- `signal - signal.mean()`, `features.py` 119, for a signal of `len` samples. -/
noncomputable def centred (len : ℕ) (x : ℕ → ℝ) (i : ℕ) : ℝ := x i - (∑ j ∈ Finset.range len, x j) / len

/-- `sframes -= preemph * np.c_[sframes[:, 0], sframes[:, :-1]]`, `features.py` 136, for one frame. -/
def preemphasis (p : ℝ) (f : ℕ → ℝ) (k : ℕ) : ℝ := f k - p * (if k = 0 then f 0 else f (k - 1))

/-- `np.hamming(m)`. -/
noncomputable def hamming (m n : ℕ) : ℝ := if m = 1 then 1 else 0.54 - 0.46 * cos (2 * π * n / ((m : ℝ) - 1))

/-- Coefficient `k` of the FFT with `N` points of a frame of `m` samples. -/
noncomputable def rfft (N m : ℕ) (f : ℕ → ℝ) (k : ℕ) : ℂ :=
  ∑ n ∈ Finset.range m, (f n : ℂ) * Complex.exp (-(2 * π * k * n / N : ℝ) * Complex.I)

/-- A matrix: numbers of rows and of columns, elements. -/
structure Mat where
  rows : ℕ
  cols : ℕ
  at_ : ℕ → ℕ → ℝ

/-- `short_term_mspec`, `features.py` 118-143; `flen`, `frate` in samples. The spectrum has `fft_len / 2` columns
(the last one is dropped). -/
noncomputable def mspec (len flen frate : ℕ) (p : ℝ) (x : ℕ → ℝ) : Except Err (Mat × ℕ) :=
  match Features.framing len flen frate with
  | .error e => .error e
  | .ok fr =>
    .ok (⟨fr.nframes, fr.fftLen / 2, fun t k =>
      ‖rfft fr.fftLen flen (fun n => preemphasis p (fun j => centred len x (fr.read t j)) n * hamming flen n) k‖⟩,
      fr.fftLen)

/-! ## Filter bank -/

/-- `np.linspace(a, b, m)[i]`. -/
noncomputable def linspace (a b : ℝ) (m i : ℕ) : ℝ := if m = 1 then a else a + i * ((b - a) / ((m : ℝ) - 1))

open Classical in
/-- `freqs[np.logical_and(freqs >= lo, freqs <= hi)]` with `freqs = np.arange(0, n)`. -/
noncomputable def between (n : ℕ) (lo hi : ℝ) : List ℕ := (List.range n).filter fun f => lo ≤ f ∧ (f : ℝ) ≤ hi

/-- `__triangle`, `features.py` 31-43: the filter at the frequencies `0, ..., n - 1`. -/
noncomputable def triangle (center start stop : ℝ) (n : ℕ) : Except Err (ℕ → ℝ) :=
  if center - start = 0 ∨ stop - center = 0 then .error .valueError
  else
    let s0 := 1 / (center - start)
    let s1 := 1 / (stop - center)
    let up := between n start center
    let down := between n center stop
    match up.head?, up.getLast?, down.head?, down.getLast? with
    | some f0, some f1, some g0, some g1 =>
      .ok fun f =>
        if f ∈ down then linspace (s1 * (stop - g0)) (s1 * (stop - g1)) down.length (down.idxOf f)
        else if f ∈ up then linspace (s0 * (f0 - start)) (s0 * (f1 - start)) up.length (up.idxOf f)
        else 0
    | _, _, _, _ => .error .indexError

/-- The centres, `features.py` 66-73, with `align_filt_center`, on the mel scale; `highfreq or srate / 2`. -/
noncomputable def centers (nfilters fftLen : ℕ) (srate lowfreq highfreq : ℝ) (i : ℕ) : ℝ :=
  let hi := if highfreq = 0 then srate / 2 else highfreq
  (⌊fftLen * Features.mel2hz (linspace (Features.hz2mel lowfreq) (Features.hz2mel hi) (nfilters + 2) i) / srate⌋ : ℤ)

/-- `create_fbank`, `features.py` 66-79: the filters, in order. -/
noncomputable def createFbank (nfilters fftLen : ℕ) (srate lowfreq highfreq : ℝ) : Except Err (List (ℕ → ℝ)) :=
  let c := centers nfilters fftLen srate lowfreq highfreq
  Eval.listComp (fun i => triangle (c (i + 1)) (c i) (c (i + 2)) (fftLen / 2)) (List.range nfilters)

/-! ## Cepstrum -/

/-- `dct_bases[n, m]`, `extract.py` 36-40. -/
noncomputable def dctBasis (nfilters n m : ℕ) : ℝ := cos ((m + 1) * π / nfilters * (n + 0.5))

/-- `lifter[m]`, `extract.py` 143-144. -/
noncomputable def lifter (lcoeff : ℝ) (m : ℕ) : ℝ := 1 + lcoeff / 2 * sin (π * (1 + m) / lcoeff)

/-- `norm`, `extract.py` 131. -/
noncomputable def norm (nfilters : ℕ) : ℝ := sqrt (2 / nfilters)

/-- Coefficient `m` of the cepstrum of a frame, `extract.py` 136-145. -/
noncomputable def cepstrum (nfilters : ℕ) (lcoeff : ℝ) (logmel : ℕ → ℝ) (m : ℕ) : ℝ :=
  (∑ n ∈ Finset.range nfilters, logmel n * dctBasis nfilters n m) * norm nfilters * lifter lcoeff m

/-- The configuration, `extract.py` 16-33; lengths in samples. -/
structure Conf where
  srate : ℝ
  preemph : ℝ
  flen : ℕ
  frate : ℕ
  applyFbank : Bool
  nfilters : ℕ
  hifreq : ℝ
  lowfreq : ℝ
  applyDeltas : Bool
  deltaOrder : ℕ
  deltaWinlen : ℕ
  applyDct : Bool
  nDct : ℕ
  lcoeff : ℝ
  uttMnorm : Bool
  addEnergy : Bool

/-- The names of the settings. -/
def settings : List String :=
  ["srate", "preemph", "window_len", "framerate", "apply_fbank", "nfilters", "cutoff_hfreq", "cutoff_lfreq",
    "apply_deltas", "delta_order", "delta_winlen", "apply_dct", "n_dct_coeff", "lifter_coeff", "utt_mnorm",
    "add_energy"]

/-- The test of the settings, `extract.py` 66-71: `exit(1)` is a runtime error. -/
def checkSettings (keys : List String) : Except Err Unit :=
  match keys with
  | [] => .ok ()
  | k :: keys => if k ∈ settings then checkSettings keys else .error .runtimeError

/-- Logarithm of the (filtered) spectrum, `extract.py` 117-127; `create_fbank` is called without the sampling rate:
its default is 16000. -/
noncomputable def logSpectrum (c : Conf) (spec : Mat) (fftLen : ℕ) : Except Err Mat :=
  if c.applyFbank then
    match createFbank c.nfilters fftLen 16000 c.lowfreq c.hifreq with
    | .error e => .error e
    | .ok fs =>
      .ok ⟨spec.rows, fs.length, fun t i =>
        log (1e-6 + ∑ k ∈ Finset.range spec.cols, spec.at_ t k * (fs.getD i fun _ => 0) k)⟩
  else .ok ⟨spec.rows, spec.cols, fun t k => log (1e-6 + spec.at_ t k)⟩

/-- The cosine transform, `extract.py` 131-147: the shapes must agree. -/
noncomputable def transform (c : Conf) (lm : Mat) : Except Err Mat :=
  if c.nfilters = 0 then .error .zeroDivision
  else if c.applyDct then
    if lm.cols ≠ c.nfilters then .error .valueError
    else if c.lcoeff = 0 then .error .valueError
    else .ok ⟨lm.rows, c.nDct, fun t m => cepstrum c.nfilters c.lcoeff (lm.at_ t) m⟩
  else .ok lm

/-- `np.c_[energy, features]`, `extract.py` 150-153. -/
noncomputable def addEnergy (c : Conf) (lm feats : Mat) : Mat :=
  if c.addEnergy then
    ⟨feats.rows, feats.cols + 1, fun t j =>
      if j = 0 then (∑ n ∈ Finset.range lm.cols, lm.at_ t n) * norm c.nfilters else feats.at_ t (j - 1)⟩
  else feats

/-- The columns of a matrix. -/
def columns (m : Mat) : List (List ℝ) :=
  (List.range m.cols).map fun j => (List.range m.rows).map fun t => m.at_ t j

/-- `features -= features.mean(axis=0)`, `extract.py` 166, for one column. -/
noncomputable def meanNorm (col : List ℝ) : List ℝ := col.map fun v => v - col.sum / col.length

/-- From the logarithm of the spectrum to the features (list of columns), `extract.py` 129-166. -/
noncomputable def finish (c : Conf) (lm : Mat) : Except Err (List (List ℝ)) :=
  match transform c lm with
  | .error e => .error e
  | .ok feats =>
    let cols := columns (addEnergy c lm feats)
    match (if c.applyDeltas then Features.addDeltas (List.replicate c.deltaOrder c.deltaWinlen) cols
      else .ok cols) with
    | .error e => .error e
    | .ok cols => .ok (if c.uttMnorm then cols.map meanNorm else cols)

/-- The features of one signal (list of columns), `extract.py` 74 and 107-166. -/
noncomputable def extract (c : Conf) (len : ℕ) (x : ℕ → ℝ) : Except Err (List (List ℝ)) :=
  if c.nfilters = 0 ∧ 0 < c.nDct then .error .zeroDivision else
  match mspec len c.flen c.frate c.preemph x with
  | .error e => .error e
  | .ok (spec, fftLen) =>
    match logSpectrum c spec fftLen with
    | .error e => .error e
    | .ok lm => finish c lm

end Verif.Spectrum
