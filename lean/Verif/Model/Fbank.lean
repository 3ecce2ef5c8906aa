import Verif.Model.Spectrum

/-!
# FBANK features

`beer/features.py` 145-204 (`fbank`).  Exact real numbers (the code converts the signal to 32 bits); a signal is a function
of the sample index together with its length; the lengths of the frames and of the steps are in samples (lines 176-177).  A
division by zero of numpy in the filters is a value error, as in `Model/Spectrum`.
-/

namespace Verif.Fbank

open Verif Spectrum Real

/-- `s_t -= preemph * np.r_[s_t[0], s_t[:-1]]`, `features.py` 184: the pre-emphasis of the whole signal. -/
def emphasised (p : ℝ) (x : ℕ → ℝ) (i : ℕ) : ℝ := x i - p * x (i - 1)

/-- The spectrum, `features.py` 188-198: sample `n` of frame `t` is the sample `t * frate + n` of the signal. -/
noncomputable def magspec (fftLen flen frate : ℕ) (p : ℝ) (x : ℕ → ℝ) (t k : ℕ) : ℝ :=
  ‖rfft fftLen flen (fun n => emphasised p x (t * frate + n) * hamming flen n) k‖

/-- `fbank`, `features.py` 175-204.  `create_fbank` is called without the sampling rate: its default is 16000.  An empty
signal has no first sample; with frames of length zero the FFT has no point. -/
noncomputable def fbank (len flen frate nfilters : ℕ) (lowfreq hifreq p : ℝ) (x : ℕ → ℝ) : Except Err Mat :=
  if frate = 0 then .error .zeroDivision
  else if len = 0 then .error .indexError
  else
    let nframes : ℤ := ((len : ℤ) - flen).fdiv frate + 1
    if nframes < 0 then .error .valueError
    else if flen = 0 then .error .valueError
    else
      let fftLen := 2 ^ (Nat.log 2 flen + 1)
      match createFbank nfilters fftLen 16000 lowfreq hifreq with
      | .error e => .error e
      | .ok filters =>
        .ok ⟨nframes.toNat, filters.length, fun t i =>
          log (∑ k ∈ Finset.range (fftLen / 2), magspec fftLen flen frate p x t k * (filters.getD i fun _ => 0) k + 1)⟩

end Verif.Fbank
