import Verif.Spec.Fbank
import Verif.Props.Spectrum

/-!
# Lemmas for the FBANK features
-/

namespace Verif.Fbank

open Verif Spectrum SpectrumSpec FbankSpec Real

theorem norm_rfft (N m : ℕ) (f : ℕ → ℝ) (k : ℕ) :
    ‖rfft N m f k‖ = sqrt ((∑ n ∈ Finset.range m, f n * cos (2 * π * k * n / N)) ^ 2 +
      (∑ n ∈ Finset.range m, f n * sin (2 * π * k * n / N)) ^ 2) := by
  have h : rfft N m f k = ((∑ n ∈ Finset.range m, f n * cos (2 * π * k * n / N) : ℝ) : ℂ) +
      ((-∑ n ∈ Finset.range m, f n * sin (2 * π * k * n / N) : ℝ) : ℂ) * Complex.I := by
    unfold rfft
    push_cast
    rw [neg_mul, Finset.sum_mul, ← sub_eq_add_neg, ← Finset.sum_sub_distrib]
    refine Finset.sum_congr rfl fun n _ => ?_
    rw [neg_mul, ← Complex.ofReal_natCast N, ← Complex.ofReal_natCast n, ← Complex.ofReal_natCast k]
    rw [← neg_mul, Complex.exp_mul_I]
    push_cast
    rw [Complex.cos_neg, Complex.sin_neg]
    ring
  rw [h, Complex.norm_add_mul_I, neg_sq]

theorem magspec_eq (flen frate : ℕ) (p : ℝ) (x : ℕ → ℝ) (t k : ℕ) :
    magspec (2 ^ (Nat.log 2 flen + 1)) flen frate p x t k = magnitude flen frate p x t k := by
  unfold magspec
  rw [norm_rfft]
  rfl

theorem magnitude_nonneg (flen frate : ℕ) (p : ℝ) (x : ℕ → ℝ) (t k : ℕ) : 0 ≤ magnitude flen frate p x t k := sqrt_nonneg _

theorem weight_nonneg (flen n : ℕ) (lo hi : ℝ) (i k : ℕ) : 0 ≤ weight flen n lo hi i k := le_max_left _ _

theorem energy_nonneg (flen frate n : ℕ) (lo hi p : ℝ) (x : ℕ → ℝ) (t i : ℕ) :
    0 ≤ ∑ k ∈ Finset.range (2 ^ Nat.log 2 flen), weight flen n lo hi i k * magnitude flen frate p x t k :=
  Finset.sum_nonneg fun _ _ => mul_nonneg (weight_nonneg ..) (magnitude_nonneg ..)

theorem magnitude_gain (flen frate : ℕ) (p c : ℝ) (x : ℕ → ℝ) (t k : ℕ) :
    magnitude flen frate p (fun j => c * x j) t k = |c| * magnitude flen frate p x t k := by
  have hs : ∀ n, sample flen frate p (fun j => c * x j) t n = c * sample flen frate p x t n := fun n => by
    unfold sample; ring
  unfold magnitude
  simp only [hs, mul_assoc c, ← Finset.mul_sum]
  rw [mul_pow, mul_pow, ← mul_add, sqrt_mul (sq_nonneg c), sqrt_sq_eq_abs]

theorem magnitude_congr (flen frate : ℕ) (p : ℝ) (x y : ℕ → ℝ) (t s : ℕ)
    (h : ∀ n < flen, sample flen frate p x t n = sample flen frate p y s n) (k : ℕ) :
    magnitude flen frate p x t k = magnitude flen frate p y s k := by
  unfold magnitude
  congr 3 <;> exact Finset.sum_congr rfl fun n hn => by rw [h n (Finset.mem_range.1 hn)]

end Verif.Fbank
