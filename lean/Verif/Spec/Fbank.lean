import Verif.Model.Fbank

/-!
# Specification of the FBANK features
-/

namespace Verif.FbankSpec

open Verif Spectrum

/-- The settings for which the triangles of `features.fbank` exist: `flen` samples for each frame, `n` filters whose
centres on the frequencies of the FFT (of a signal at 16 kHz) are all different. -/
structure Settings (flen n : ℕ) (lo hi : ℝ) : Prop where
  pos : 0 < flen
  low : 0 ≤ lo
  le : lo ≤ hi
  high : 0 < hi
  nyquist : hi ≤ 8000
  distinct : ∀ i ≤ n, centers n (2 ^ (Nat.log 2 flen + 1)) 16000 lo hi i <
    centers n (2 ^ (Nat.log 2 flen + 1)) 16000 lo hi (i + 1)

/-- Weight of the frequency `k` in the filter `i`. -/
noncomputable def weight (flen n : ℕ) (lo hi : ℝ) (i k : ℕ) : ℝ :=
  let c := centers n (2 ^ (Nat.log 2 flen + 1)) 16000 lo hi
  max 0 (min ((k - c i) / (c (i + 1) - c i)) ((c (i + 2) - k) / (c (i + 2) - c (i + 1))))

/-- Sample `n` of frame `t`: difference with the sample before (the sample itself for the first of the signal), weighted by
the window. -/
noncomputable def sample (flen frate : ℕ) (p : ℝ) (x : ℕ → ℝ) (t n : ℕ) : ℝ :=
  (x (t * frate + n) - p * x (t * frate + n - 1)) * hamming flen n

/-- Magnitude of the frequency `k` of frame `t`. -/
noncomputable def magnitude (flen frate : ℕ) (p : ℝ) (x : ℕ → ℝ) (t k : ℕ) : ℝ :=
  Real.sqrt ((∑ n ∈ Finset.range flen, sample flen frate p x t n * Real.cos (2 * Real.pi * k * n / (2 ^ (Nat.log 2 flen + 1) : ℕ))) ^ 2 +
    (∑ n ∈ Finset.range flen, sample flen frate p x t n * Real.sin (2 * Real.pi * k * n / (2 ^ (Nat.log 2 flen + 1) : ℕ))) ^ 2)

/-- The feature: logarithm of one plus the energy in the filter. -/
noncomputable def feature (flen frate n : ℕ) (lo hi p : ℝ) (x : ℕ → ℝ) (t i : ℕ) : ℝ :=
  Real.log (1 + ∑ k ∈ Finset.range (2 ^ Nat.log 2 flen), weight flen n lo hi i k * magnitude flen frate p x t k)

end Verif.FbankSpec
