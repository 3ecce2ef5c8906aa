import Verif.Lemmas.Fbank

/-!
# C163: FBANK features
-/

namespace Verif.Props

open Verif Fbank Spectrum SpectrumSpec FbankSpec Real

/-- C163: one row for every frame which fits in the signal, one column for every filter; every feature is the logarithm of
one plus the weighted sum, over the frequencies below half the sampling rate, of the magnitudes of the pre-emphasised and
windowed frame, and is not negative.  Missing for the property: the filters are those of a signal of 16 kHz, whatever the
sampling rate (`C163_rate_ignored`). -/
theorem C163_features_partial (len flen frate n : ℕ) (lo hi p : ℝ) (x : ℕ → ℝ) (hs : Settings flen n lo hi) (hr : 0 < frate)
    (hl : flen ≤ len) :
    ∃ m, fbank len flen frate n lo hi p x = .ok m ∧ m.rows = (len - flen) / frate + 1 ∧ m.cols = n ∧
      ∀ t, ∀ i < n, m.at_ t i = feature flen frate n lo hi p x t i ∧ 0 ≤ m.at_ t i := by
  have hp := hs.pos
  have hpow : 2 ^ (Nat.log 2 flen + 1) = 2 * 2 ^ Nat.log 2 flen := pow_succ' 2 _
  have hd := hs.distinct
  rw [hpow] at hd
  obtain ⟨fs, h1, h2, h3, -⟩ := C129_fbank_partial n (2 ^ Nat.log 2 flen) 16000 lo hi (by norm_num) hs.low hs.le hs.high
    (by linarith [hs.nyquist]) hd
  rw [← hpow] at h1 h3
  have hdiv : ((len : ℤ) - flen).fdiv frate = (((len - flen) / frate : ℕ) : ℤ) := by
    rw [Int.fdiv_eq_ediv_of_nonneg _ (by omega)]
    push_cast [hl]
    rfl
  unfold fbank
  rw [if_neg hr.ne', if_neg (by omega)]
  dsimp only
  rw [hdiv, if_neg (not_lt.mpr (by positivity)), if_neg hp.ne', h1]
  refine ⟨_, rfl, by dsimp only; generalize (len - flen) / frate = q; omega, h2, fun t i hi' => ?_⟩
  have e : log (∑ k ∈ Finset.range (2 ^ (Nat.log 2 flen + 1) / 2), magspec (2 ^ (Nat.log 2 flen + 1)) flen frate p x t k *
      (fs.getD i fun _ => 0) k + 1) = feature flen frate n lo hi p x t i := by
    unfold feature
    rw [add_comm, show 2 ^ (Nat.log 2 flen + 1) / 2 = 2 ^ Nat.log 2 flen by rw [hpow]; omega]
    congr 2
    refine Finset.sum_congr rfl fun k hk => ?_
    rw [magspec_eq, List.getD_eq_getElem _ _ (by omega), h3 i (by omega) k (Finset.mem_range.1 hk), mul_comm]
    rfl
  dsimp only
  rw [e]
  refine ⟨rfl, ?_⟩
  unfold feature
  exact log_nonneg (by linarith [energy_nonneg flen frate n lo hi p x t i])

/-- C163: a row depends only on the samples of its frame and on the one before: in particular the rows already computed do not
change when the signal goes on. -/
theorem C163_local (len len' flen frate n : ℕ) (lo hi p : ℝ) (x y : ℕ → ℝ) (hs : Settings flen n lo hi) (hr : 0 < frate)
    (hl : flen ≤ len) (hl' : flen ≤ len') (t : ℕ) (hxy : ∀ j, t * frate ≤ j + 1 → j < t * frate + flen → x j = y j) :
    ∃ m m', fbank len flen frate n lo hi p x = .ok m ∧ fbank len' flen frate n lo hi p y = .ok m' ∧
      ∀ i < n, m.at_ t i = m'.at_ t i := by
  obtain ⟨m, h1, -, -, h2⟩ := C163_features_partial len flen frate n lo hi p x hs hr hl
  obtain ⟨m', h1', -, -, h2'⟩ := C163_features_partial len' flen frate n lo hi p y hs hr hl'
  refine ⟨m, m', h1, h1', fun i hi' => ?_⟩
  rw [(h2 t i hi').1, (h2' t i hi').1]
  unfold feature
  congr 2
  refine Finset.sum_congr rfl fun k _ => ?_
  rw [magnitude_congr flen frate p x y t t (fun n hn => by
    unfold sample
    rw [hxy (t * frate + n) (by omega) (by omega), hxy (t * frate + n - 1) (by omega) (by omega)])]

/-- C163: a signal which starts one step later has the same rows, one row earlier. The first row is the exception, since its
first sample has none before it. -/
theorem C163_shift (len flen frate n : ℕ) (lo hi p : ℝ) (x : ℕ → ℝ) (hs : Settings flen n lo hi) (hr : 0 < frate)
    (hl : flen + frate ≤ len) :
    ∃ m m', fbank len flen frate n lo hi p x = .ok m ∧
      fbank (len - frate) flen frate n lo hi p (fun j => x (j + frate)) = .ok m' ∧ m.rows = m'.rows + 1 ∧
      ∀ t, 0 < t → ∀ i < n, m'.at_ t i = m.at_ (t + 1) i := by
  obtain ⟨m, h1, h3, -, h2⟩ := C163_features_partial len flen frate n lo hi p x hs hr (by omega)
  obtain ⟨m', h1', h3', -, h2'⟩ := C163_features_partial (len - frate) flen frate n lo hi p (fun j => x (j + frate)) hs hr (by omega)
  refine ⟨m, m', h1, h1', ?_, fun t ht i hi' => ?_⟩
  · rw [h3, h3', show len - flen = len - frate - flen + frate by omega, Nat.add_div_right _ hr]
  · rw [(h2 (t + 1) i hi').1, (h2' t i hi').1]
    unfold feature
    congr 2
    refine Finset.sum_congr rfl fun k _ => ?_
    rw [magnitude_congr flen frate p (fun j => x (j + frate)) x t (t + 1) (fun n hn => by
      have hpos : 0 < t * frate := Nat.mul_pos ht hr
      unfold sample
      rw [show (t + 1) * frate + n = t * frate + n + frate by ring,
        show t * frate + n + frate - 1 = t * frate + n - 1 + frate by omega])]

/-- C163: a louder signal has larger features, by at most the logarithm of the gain; the sign of the signal does not
matter, and silence has features zero. -/
theorem C163_gain (len flen frate n : ℕ) (lo hi p : ℝ) (x : ℕ → ℝ) (hs : Settings flen n lo hi) (hr : 0 < frate)
    (hl : flen ≤ len) (c : ℝ) :
    ∃ m m', fbank len flen frate n lo hi p x = .ok m ∧ fbank len flen frate n lo hi p (fun j => c * x j) = .ok m' ∧
      ∀ t, ∀ i < n, (1 ≤ |c| → m.at_ t i ≤ m'.at_ t i ∧ m'.at_ t i ≤ m.at_ t i + log |c|) ∧
        (c = -1 → m'.at_ t i = m.at_ t i) ∧ (c = 0 → m'.at_ t i = 0) := by
  obtain ⟨m, h1, -, -, h2⟩ := C163_features_partial len flen frate n lo hi p x hs hr hl
  obtain ⟨m', h1', -, -, h2'⟩ := C163_features_partial len flen frate n lo hi p (fun j => c * x j) hs hr hl
  refine ⟨m, m', h1, h1', fun t i hi' => ?_⟩
  rw [(h2 t i hi').1, (h2' t i hi').1]
  unfold feature
  simp only [magnitude_gain, mul_left_comm _ |c|, ← Finset.mul_sum]
  have h0 := energy_nonneg flen frate n lo hi p x t i
  generalize (∑ k ∈ Finset.range (2 ^ Nat.log 2 flen), weight flen n lo hi i k * magnitude flen frate p x t k) = E at *
  refine ⟨fun hc => ⟨log_le_log (by linarith) (by nlinarith), ?_⟩, ?_, ?_⟩
  · rw [← log_mul (by linarith) (by linarith)]
    exact log_le_log (by nlinarith) (by nlinarith)
  · rintro rfl; simp
  · rintro rfl; simp

/-- C163: the exceptions: no step between the frames, an empty signal, more than one step missing for the first frame, empty
frames, filters with the same centre.  With a signal that is shorter than a frame by at most one step, no row. -/
theorem C163_errors (len flen frate n : ℕ) (lo hi p : ℝ) (x : ℕ → ℝ) :
    (frate = 0 → fbank len flen frate n lo hi p x = .error .zeroDivision) ∧
    (0 < frate → len = 0 → fbank len flen frate n lo hi p x = .error .indexError) ∧
    (0 < frate → 0 < len → len + frate < flen → fbank len flen frate n lo hi p x = .error .valueError) ∧
    (0 < frate → 0 < len → flen = 0 → fbank len flen frate n lo hi p x = .error .valueError) ∧
    (0 < frate → 0 < len → len < flen → flen ≤ len + frate → Settings flen n lo hi →
      ∃ m, fbank len flen frate n lo hi p x = .ok m ∧ m.rows = 0) ∧
    (0 < frate → flen ≤ len → 0 < flen → 0 < n → 0 ≤ lo → lo ≤ hi → 0 < hi → hi ≤ 8000 →
      (∃ i ≤ n, centers n (2 ^ (Nat.log 2 flen + 1)) 16000 lo hi i =
        centers n (2 ^ (Nat.log 2 flen + 1)) 16000 lo hi (i + 1)) →
      fbank len flen frate n lo hi p x = .error .valueError) := by
  have hpow : 2 ^ (Nat.log 2 flen + 1) = 2 * 2 ^ Nat.log 2 flen := pow_succ' 2 _
  refine ⟨fun h => ?_, fun h1 h2 => ?_, fun h1 h2 h3 => ?_, fun h1 h2 h3 => ?_, fun h1 h2 h3 h4 hs => ?_,
    fun h1 h2 h3 h4 h5 h6 h7 h8 h9 => ?_⟩
  · unfold fbank; rw [if_pos h]
  · unfold fbank; rw [if_neg h1.ne', if_pos h2]
  · unfold fbank
    rw [if_neg h1.ne', if_neg h2.ne']
    dsimp only
    rw [if_pos]
    have hneg : ((len : ℤ) - flen).fdiv frate < -1 := by
      rw [Int.fdiv_eq_ediv_of_nonneg _ (by omega)]
      exact Int.ediv_lt_of_lt_mul (by omega) (by omega)
    omega
  · unfold fbank
    rw [if_neg h1.ne', if_neg h2.ne']
    dsimp only
    rw [if_neg, if_pos h3]
    rw [Int.fdiv_eq_ediv_of_nonneg _ (by omega)]
    have : 0 ≤ ((len : ℤ) - flen) / frate := Int.ediv_nonneg (by omega) (by omega)
    omega
  · have hd := hs.distinct
    rw [hpow] at hd
    obtain ⟨fs, e, -⟩ := C129_fbank_partial n (2 ^ Nat.log 2 flen) 16000 lo hi (by norm_num) hs.low hs.le hs.high
      (by linarith [hs.nyquist]) hd
    have hdiv : ((len : ℤ) - flen).fdiv frate = -1 := by
      rw [Int.fdiv_eq_ediv_of_nonneg _ (by omega)]
      apply Int.le_antisymm
      · have : ((len : ℤ) - flen) / frate < 0 := Int.ediv_neg_of_neg_of_pos (by omega) (by omega)
        omega
      · exact Int.le_ediv_of_mul_le (by omega) (by omega)
    unfold fbank
    rw [if_neg h1.ne', if_neg h2.ne']
    dsimp only
    rw [hdiv, if_neg (by omega), if_neg hs.pos.ne', hpow, e]
    exact ⟨_, rfl, rfl⟩
  · rw [hpow] at h9
    have e := C129_refused n (2 ^ Nat.log 2 flen) 16000 lo hi (by norm_num) h5 h6 h7 (by linarith) h4 h9
    unfold fbank
    rw [if_neg h1.ne', if_neg (by omega)]
    dsimp only
    rw [if_neg, if_neg h3.ne', hpow, e]
    rw [Int.fdiv_eq_ediv_of_nonneg _ (by omega)]
    have : 0 ≤ ((len : ℤ) - flen) / frate := Int.ediv_nonneg (by omega) (by omega)
    omega

/-- The code violates the property: the filters are made for a signal at 16 kHz whatever the sampling rate which was
given (it changes only the numbers of samples `flen` and `frate`).  With a cut-off of 4000 Hz, half the sampling rate of a
signal at 8 kHz, the upper half of the frequencies has no weight in any filter, and two signals which differ only there have the
same features. -/
theorem C163_rate_ignored (len flen frate n : ℕ) (lo p : ℝ) (x y : ℕ → ℝ) (hs : Settings flen n lo 4000) (hr : 0 < frate)
    (hl : flen ≤ len) :
    (∀ i < n, ∀ k : ℕ, 2 ^ Nat.log 2 flen ≤ 2 * k → weight flen n lo 4000 i k = 0) ∧
    ((∀ t, ∀ k : ℕ, 2 * k < 2 ^ Nat.log 2 flen → magnitude flen frate p x t k = magnitude flen frate p y t k) →
      ∃ m m', fbank len flen frate n lo 4000 p x = .ok m ∧ fbank len flen frate n lo 4000 p y = .ok m' ∧
        ∀ t, ∀ i < n, m.at_ t i = m'.at_ t i) := by
  have hw : ∀ i < n, ∀ k : ℕ, 2 ^ Nat.log 2 flen ≤ 2 * k → weight flen n lo 4000 i k = 0 := by
    intro i hi k hk
    have hlast : centers n (2 ^ (Nat.log 2 flen + 1)) 16000 lo 4000 (n + 1) ≤ k := by
      rw [centers_last _ _ _ _ _ (by norm_num)]
      have h4 : ((2 ^ Nat.log 2 flen : ℕ) : ℝ) ≤ 2 * k := by exact_mod_cast hk
      have h5 : ((2 ^ (Nat.log 2 flen + 1) : ℕ) : ℝ) * 4000 / 16000 ≤ k := by
        rw [pow_succ]
        push_cast at h4 ⊢
        linarith
      exact_mod_cast le_trans (Int.floor_le _) h5
    have hmono : ∀ a b, a ≤ b → centers n (2 ^ (Nat.log 2 flen + 1)) 16000 lo 4000 a ≤
        centers n (2 ^ (Nat.log 2 flen + 1)) 16000 lo 4000 b := by
      intro a b hab
      induction b, hab using Nat.le_induction with
      | base => exact le_refl _
      | succ j _ ihj => exact le_trans ihj (centers_mono _ _ _ _ _ (by norm_num) hs.low hs.le (by norm_num) j)
    exact tent_outside _ _ _ _ (hs.distinct i (by omega)) (hs.distinct (i + 1) (by omega))
      (.inr (le_trans (hmono _ _ (by omega)) hlast))
  refine ⟨hw, fun h => ?_⟩
  obtain ⟨m, h1, -, -, h2⟩ := C163_features_partial len flen frate n lo 4000 p x hs hr hl
  obtain ⟨m', h1', -, -, h2'⟩ := C163_features_partial len flen frate n lo 4000 p y hs hr hl
  refine ⟨m, m', h1, h1', fun t i hi' => ?_⟩
  rw [(h2 t i hi').1, (h2' t i hi').1]
  unfold feature
  congr 2
  refine Finset.sum_congr rfl fun k _ => ?_
  by_cases hk : 2 * k < 2 ^ Nat.log 2 flen
  · rw [h t k hk]
  · rw [hw i hi' k (by omega)]; ring

/-! ## Examples -/

/-- The default settings: 25 ms at 16 kHz, 26 filters from 20 to 8000 Hz. -/
theorem fbank_default : Settings 400 26 20 8000 := by
  have e : Nat.log 2 400 = 8 := by decide +kernel
  exact ⟨by norm_num, by norm_num, by norm_num, by norm_num, by norm_num, fun i _ => by
    rw [e]; exact default_fbank i⟩

/-- 25 ms at 8 kHz, 20 filters from 20 to 4000 Hz. -/
theorem fbank_8k : Settings 200 20 20 4000 := by
  have e : Nat.log 2 200 = 7 := by decide +kernel
  exact ⟨by norm_num, by norm_num, by norm_num, by norm_num, by norm_num, fun i _ => by
    rw [e]
    exact C129_enough 20 128 16000 20 4000 (by norm_num) (by norm_num) (by norm_num) (by norm_num) (by norm_num) i⟩

/-- One second: 98 frames of 26 features. -/
example : ∃ m, fbank 16000 400 160 26 20 8000 0.97 (fun i => cos i) = .ok m ∧ m.rows = 98 ∧ m.cols = 26 := by
  obtain ⟨m, h1, h2, h3, -⟩ := C163_features_partial 16000 400 160 26 20 8000 0.97 (fun i => cos i) fbank_default (by norm_num)
    (by norm_num)
  exact ⟨m, h1, by rw [h2], h3⟩

/-- The signal goes on for another second: the first row stays the same. -/
example : ∃ m m', fbank 16000 400 160 26 20 8000 0.97 (fun i => cos i) = .ok m ∧
    fbank 32000 400 160 26 20 8000 0.97 (fun i => if i < 16000 then cos i else 0) = .ok m' ∧
    ∀ i < 26, m.at_ 3 i = m'.at_ 3 i :=
  C163_local 16000 32000 400 160 26 20 8000 0.97 _ _ fbank_default (by norm_num) (by norm_num) (by norm_num) 3
    fun j _ h => by rw [if_pos (by omega)]

example : ∃ m m', fbank 16000 400 160 26 20 8000 0.97 (fun i => cos i) = .ok m ∧
    fbank (16000 - 160) 400 160 26 20 8000 0.97 (fun i => cos ((i + 160 : ℕ) : ℝ)) = .ok m' ∧ m.rows = m'.rows + 1 ∧
    ∀ t, 0 < t → ∀ i < 26, m'.at_ t i = m.at_ (t + 1) i :=
  C163_shift 16000 400 160 26 20 8000 0.97 (fun i => cos i) fbank_default (by norm_num) (by norm_num)

example : ∃ m m', fbank 16000 400 160 26 20 8000 0.97 (fun i => cos i) = .ok m ∧
    fbank 16000 400 160 26 20 8000 0.97 (fun i => 2 * cos i) = .ok m' ∧
    ∀ t, ∀ i < 26, m.at_ t i ≤ m'.at_ t i ∧ m'.at_ t i ≤ m.at_ t i + log 2 := by
  obtain ⟨m, m', h1, h2, h3⟩ := C163_gain 16000 400 160 26 20 8000 0.97 (fun i => cos i) fbank_default (by norm_num)
    (by norm_num) 2
  refine ⟨m, m', h1, h2, fun t i hi => ?_⟩
  have := (h3 t i hi).1 (by norm_num)
  rwa [abs_of_pos (by norm_num : (0 : ℝ) < 2)] at this

example : ∃ m, fbank 300 400 160 26 20 8000 0.97 (fun i => cos i) = .ok m ∧ m.rows = 0 :=
  (C163_errors 300 400 160 26 20 8000 0.97 _).2.2.2.2.1 (by norm_num) (by norm_num) (by norm_num) (by norm_num) fbank_default

/-- The frequency 3000 Hz (bin 96 of 256 at 8 kHz) has no weight in the filters. -/
example : ∀ i < 20, weight 200 20 20 4000 i 96 = 0 := fun i hi =>
  (C163_rate_ignored 8000 200 80 20 20 0.97 (fun _ => 0) (fun _ => 0) fbank_8k (by norm_num) (by norm_num)).1 i hi 96
    (by rw [show Nat.log 2 200 = 7 by decide +kernel]; norm_num)

end Verif.Props
