import Verif.Lemmas.Spectrum
import Verif.Props.Deltas
import Mathlib.LinearAlgebra.Matrix.NonsingularInverse

/-!
# C128 - C130: spectrum, filter bank and cepstrum
-/

namespace Verif.Props

open Verif Spectrum SpectrumSpec Features Real

/-! ## C128: short term spectrum -/

theorem centred_congr (len : ℕ) (x y : ℕ → ℝ) (hs : ∑ j ∈ Finset.range len, x j = ∑ j ∈ Finset.range len, y j)
    (i : ℕ) (h : x i = y i) : centred len x i = centred len y i := by
  unfold centred
  rw [hs, h]

theorem centred_offset (len : ℕ) (hlen : 0 < len) (x : ℕ → ℝ) (c : ℝ) :
    centred len (fun i => x i + c) = centred len x := by
  funext i
  unfold centred
  have : (len : ℝ) ≠ 0 := by positivity
  rw [Finset.sum_add_distrib, Finset.sum_const, Finset.card_range, nsmul_eq_mul]
  field_simp
  ring

theorem framing_value (len flen frate : ℕ) (hflen : 0 < flen) (hfrate : 0 < frate) (h : flen ≤ len) :
    framing len flen frate = .ok ⟨(len - flen) / frate + 1, 2 ^ (Nat.log 2 flen + 1), fun t k => t * frate + k⟩ := by
  have hdiv : ((len : ℤ) - flen).fdiv frate = (((len - flen) / frate : ℕ) : ℤ) := by
    rw [Int.fdiv_eq_ediv_of_nonneg _ (by omega)]
    push_cast [h]
    rfl
  unfold framing
  rw [if_neg (by omega)]
  dsimp only
  rw [hdiv, if_neg (not_lt.mpr (by positivity)), if_neg (by omega)]
  congr 2

/-- Shape: one row for every frame that fits in the signal, one column for every frequency below half the
sampling rate; the magnitudes are not negative. -/
theorem C128_shape (len flen frate : ℕ) (p : ℝ) (x : ℕ → ℝ) (hflen : 0 < flen) (hfrate : 0 < frate)
    (h : flen ≤ len) :
    ∃ m, mspec len flen frate p x = .ok (m, 2 ^ (Nat.log 2 flen + 1)) ∧ m.rows = (len - flen) / frate + 1 ∧
      m.cols = 2 ^ Nat.log 2 flen ∧ ∀ t k, 0 ≤ m.at_ t k := by
  unfold mspec
  rw [framing_value len flen frate hflen hfrate h]
  exact ⟨_, rfl, rfl, by show 2 ^ (Nat.log 2 flen + 1) / 2 = _; rw [pow_succ]; omega, fun t k => norm_nonneg _⟩

/-- A constant added to the signal changes nothing. -/
theorem C128_offset (len flen frate : ℕ) (hlen : 0 < len) (p c : ℝ) (x : ℕ → ℝ) :
    mspec len flen frate p (fun i => x i + c) = mspec len flen frate p x := by
  unfold mspec
  rw [centred_offset len hlen]

/-- The magnitudes are proportional to the signal. -/
theorem C128_gain (len flen frate : ℕ) (p c : ℝ) (x : ℕ → ℝ) (m : Mat) (fftLen : ℕ)
    (h : mspec len flen frate p x = .ok (m, fftLen)) :
    ∃ m', mspec len flen frate p (fun i => c * x i) = .ok (m', fftLen) ∧ m'.rows = m.rows ∧ m'.cols = m.cols ∧
      ∀ t k, m'.at_ t k = |c| * m.at_ t k := by
  unfold mspec at h ⊢
  cases hf : framing len flen frate with
  | error e => rw [hf] at h; simp at h
  | ok fr =>
    rw [hf] at h
    simp only [Except.ok.injEq, Prod.mk.injEq] at h
    obtain ⟨rfl, rfl⟩ := h
    refine ⟨_, rfl, rfl, rfl, fun t k => ?_⟩
    dsimp only
    have hr : rfft fr.fftLen flen (fun n => preemphasis p (fun j => centred len (fun i => c * x i) (fr.read t j)) n *
        hamming flen n) k = (c : ℂ) * rfft fr.fftLen flen (fun n => preemphasis p (fun j => centred len x (fr.read t j)) n *
        hamming flen n) k := by
      unfold rfft
      rw [Finset.mul_sum]
      refine Finset.sum_congr rfl fun n _ => ?_
      have hc : ∀ i, centred len (fun i => c * x i) i = c * centred len x i := by
        intro i
        unfold centred
        rw [← Finset.mul_sum]
        ring
      have hp : preemphasis p (fun j => centred len (fun i => c * x i) (fr.read t j)) n =
          c * preemphasis p (fun j => centred len x (fr.read t j)) n := by
        unfold preemphasis
        simp only [hc]
        split <;> ring
      dsimp only
      rw [hp]
      push_cast
      ring
    rw [hr, norm_mul, Complex.norm_real, Real.norm_eq_abs]

/-- A frame only depends on its own samples (and on the mean of the signal): two signals with the same sum that
agree on the samples `t * frate, ..., t * frate + flen - 1` have the same row `t`. -/
theorem C128_local (len flen frate : ℕ) (p : ℝ) (x y : ℕ → ℝ) (t : ℕ) (mx my : Mat) (nx ny : ℕ)
    (hs : ∑ j ∈ Finset.range len, x j = ∑ j ∈ Finset.range len, y j)
    (hxy : ∀ k < flen, x (t * frate + k) = y (t * frate + k))
    (h1 : mspec len flen frate p x = .ok (mx, nx)) (h2 : mspec len flen frate p y = .ok (my, ny)) (k : ℕ) :
    mx.at_ t k = my.at_ t k := by
  unfold mspec at h1 h2
  cases hf : framing len flen frate with
  | error e => rw [hf] at h1; simp at h1
  | ok fr =>
    have hread : ∀ j, fr.read t j = t * frate + j := by
      unfold framing at hf
      split at hf
      · simp at hf
      · dsimp only at hf
        split at hf
        · simp at hf
        · split at hf
          · simp at hf
          · cases hf
            intro j
            rfl
    rw [hf] at h1 h2
    simp only [Except.ok.injEq, Prod.mk.injEq] at h1 h2
    obtain ⟨rfl, rfl⟩ := h1
    obtain ⟨rfl, rfl⟩ := h2
    dsimp only
    congr 1
    unfold rfft
    refine Finset.sum_congr rfl fun n hn => ?_
    rw [Finset.mem_range] at hn
    have hp : preemphasis p (fun j => centred len x (fr.read t j)) n =
        preemphasis p (fun j => centred len y (fr.read t j)) n := by
      have hc : ∀ j < flen, centred len x (fr.read t j) = centred len y (fr.read t j) := by
        intro j hj
        rw [hread]
        exact centred_congr len x y hs _ (hxy j hj)
      unfold preemphasis
      dsimp only
      rw [hc n hn, hc 0 (by omega)]
      split
      · rfl
      · rw [hc (n - 1) (by omega)]
    dsimp only
    rw [hp]

/-- Silence: a constant signal has a zero spectrum. -/
theorem C128_silence (len flen frate : ℕ) (hlen : 0 < len) (p c : ℝ) (m : Mat) (n : ℕ)
    (h : mspec len flen frate p (fun _ => c) = .ok (m, n)) (t k : ℕ) : m.at_ t k = 0 := by
  have h0 := C128_offset len flen frate hlen p c (fun _ => 0)
  simp only [zero_add] at h0
  rw [h0] at h
  obtain ⟨m', h1, -, -, h2⟩ := C128_gain len flen frate p 0 (fun _ => 0) m n h
  simp only [mul_zero] at h1
  rw [h1] at h
  simp only [Except.ok.injEq, Prod.mk.injEq, and_true] at h
  subst h
  rw [h2]
  simp

/-- One second at 16 kHz with the default configuration: 98 frames, 256 frequencies. -/
example : ∃ m, mspec 16000 400 160 0.97 (fun i => cos i) = .ok (m, 512) ∧ m.rows = 98 ∧ m.cols = 256 := by
  obtain ⟨m, h1, h2, h3, -⟩ := C128_shape 16000 400 160 0.97 (fun i => cos i) (by norm_num) (by norm_num) (by norm_num)
  have : Nat.log 2 400 = 8 := by decide +kernel
  rw [this] at h1 h3
  exact ⟨m, h1, h2, h3⟩

/-! ## C129: filter bank -/

/-- A filter is the triangle with height 1 at its centre and zero at the neighbouring centres, at every frequency,
when both slopes contain a frequency. -/
theorem C129_triangle (center start stop : ℝ) (n : ℕ) (h1 : start < center) (h2 : center < stop) (h0 : 0 ≤ center)
    (hup : ∃ f < n, start ≤ (f : ℝ) ∧ (f : ℝ) ≤ center) (hdown : ∃ f < n, center ≤ (f : ℝ) ∧ (f : ℝ) ≤ stop) :
    ∃ g, triangle center start stop n = .ok g ∧ ∀ f < n, g f = tent start center stop f :=
  triangle_ok center start stop n h1 h2 h0 hup hdown

example : ∃ g, triangle 4 2 5 8 = .ok g ∧ g 3 = 1 / 2 ∧ g 4 = 1 ∧ g 5 = 0 ∧ g 7 = 0 := by
  obtain ⟨g, h, hg⟩ := C129_triangle 4 2 5 8 (by norm_num) (by norm_num) (by norm_num) ⟨3, by norm_num, by norm_num, by norm_num⟩
    ⟨4, by norm_num, by norm_num, by norm_num⟩
  refine ⟨g, h, ?_, ?_, ?_, ?_⟩ <;> rw [hg _ (by norm_num)] <;> norm_num [tent]

/-- When the centres are all different, there are as many filters as asked; they are triangles on consecutive
centres, hence not negative, and they sum to one from the first centre to the last. -/
theorem C129_fbank_partial (nfilters h : ℕ) (srate lo hi : ℝ) (hs : 0 < srate) (hlo : 0 ≤ lo) (hlh : lo ≤ hi)
    (h0 : 0 < hi) (hhi : hi ≤ srate / 2)
    (hc : ∀ i ≤ nfilters, centers nfilters (2 * h) srate lo hi i < centers nfilters (2 * h) srate lo hi (i + 1)) :
    ∃ fs, createFbank nfilters (2 * h) srate lo hi = .ok fs ∧ fs.length = nfilters ∧
      (∀ i (hi' : i < fs.length), ∀ f < h, fs[i] f = tent (centers nfilters (2 * h) srate lo hi i)
        (centers nfilters (2 * h) srate lo hi (i + 1)) (centers nfilters (2 * h) srate lo hi (i + 2)) f) ∧
      ∀ f : ℕ, f < h → centers nfilters (2 * h) srate lo hi 1 ≤ f →
        (f : ℝ) ≤ centers nfilters (2 * h) srate lo hi nfilters → (fs.map fun g => g f).sum = 1 := by
  set c := centers nfilters (2 * h) srate lo hi with hcdef
  have hlast : c (nfilters + 1) ≤ h := by
    rw [hcdef, centers_last _ _ _ _ _ h0]
    have h1 : ((2 * h : ℕ) : ℝ) * hi / srate ≤ h := by
      rw [div_le_iff₀ hs]
      push_cast
      nlinarith [(Nat.cast_nonneg h : (0 : ℝ) ≤ h)]
    exact_mod_cast le_trans (Int.floor_le _) h1
  have hmono : ∀ i j, i ≤ j → c i ≤ c j := by
    intro i j hij
    induction j, hij using Nat.le_induction with
    | base => exact le_refl _
    | succ j _ ihj => exact le_trans ihj (centers_mono _ _ _ _ _ hs hlo hlh h0.ne' j)
  have hfilter : ∀ i, i < nfilters → ∃ g, triangle (c (i + 1)) (c i) (c (i + 2)) h = .ok g ∧
      ∀ f < h, g f = tent (c i) (c (i + 1)) (c (i + 2)) f := by
    intro i hi'
    obtain ⟨m, hm⟩ := centers_int nfilters (2 * h) srate lo hi hs hlo hlh h0.ne' (i + 1)
    have h1 := hc i (by omega)
    have h2 := hc (i + 1) (by omega)
    have h3 : m < h := by
      have : (m : ℝ) < h := by
        rw [← hm]
        exact lt_of_lt_of_le h2 (le_trans (hmono _ _ (by omega)) hlast)
      exact_mod_cast this
    refine C129_triangle _ _ _ h h1 h2 (by rw [hcdef, hm]; positivity) ⟨m, h3, ?_, ?_⟩ ⟨m, h3, ?_, ?_⟩
    · rw [← hm]; exact h1.le
    · rw [← hm]
    · rw [← hm]
    · rw [← hm]; exact h2.le
  choose! g hg1 hg2 using hfilter
  have hh : 2 * h / 2 = h := by omega
  refine ⟨(List.range nfilters).map g, ?_, by simp, ?_, ?_⟩
  · unfold createFbank
    dsimp only
    rw [← hcdef, hh]
    exact Eval.listComp_ok _ g _ fun i hi' => hg1 i (List.mem_range.1 hi')
  · intro i hi' f hf
    simp only [List.length_map, List.length_range] at hi'
    rw [List.getElem_map, List.getElem_range]
    exact hg2 i hi' f hf
  · intro f hf h1 h2
    rw [List.map_map]
    have : ((List.range nfilters).map ((fun g => g f) ∘ g)).sum =
        ∑ i ∈ Finset.range nfilters, tent (c i) (c (i + 1)) (c (i + 2)) f := by
      rw [Finset.sum_range, ← List.sum_ofFn]
      congr 1
      rw [List.ofFn_eq_map, ← List.map_coe_finRange_eq_range, List.map_map]
      exact List.map_congr_left fun i _ => hg2 i.1 i.2 f hf
    rw [this]
    exact tent_partition c nfilters hc f h1 h2

/-- When two consecutive centres fall on the same frequency, there is no filter bank (the code divides by zero:
its filters are NaN). -/
theorem C129_refused (nfilters h : ℕ) (srate lo hi : ℝ) (hs : 0 < srate) (hlo : 0 ≤ lo) (hlh : lo ≤ hi)
    (h0 : 0 < hi) (hhi : hi ≤ srate / 2) (hn : 0 < nfilters)
    (hc : ∃ i ≤ nfilters, centers nfilters (2 * h) srate lo hi i = centers nfilters (2 * h) srate lo hi (i + 1)) :
    createFbank nfilters (2 * h) srate lo hi = .error .valueError := by
  set c := centers nfilters (2 * h) srate lo hi with hcdef
  have hmono1 : ∀ i, c i ≤ c (i + 1) := fun i => centers_mono _ _ _ _ _ hs hlo hlh h0.ne' i
  have hlast : c (nfilters + 1) ≤ h := by
    rw [hcdef, centers_last _ _ _ _ _ h0]
    have h1 : ((2 * h : ℕ) : ℝ) * hi / srate ≤ h := by
      rw [div_le_iff₀ hs]
      push_cast
      nlinarith [(Nat.cast_nonneg h : (0 : ℝ) ≤ h)]
    exact_mod_cast le_trans (Int.floor_le _) h1
  have hmono : ∀ i j, i ≤ j → c i ≤ c j := by
    intro i j hij
    induction j, hij using Nat.le_induction with
    | base => exact le_refl _
    | succ j _ ihj => exact le_trans ihj (hmono1 j)
  have hh : 2 * h / 2 = h := by omega
  have hcase : ∀ i < nfilters, (c i = c (i + 1) ∨ c (i + 1) = c (i + 2)) →
      triangle (c (i + 1)) (c i) (c (i + 2)) h = .error .valueError := by
    intro i _ hcase
    unfold triangle
    rw [if_pos]
    rcases hcase with h | h
    · exact .inl (by rw [h]; ring)
    · exact .inr (by rw [h]; ring)
  unfold createFbank
  dsimp only
  rw [← hcdef, hh]
  apply Eval.listComp_error
  · intro i hi' e he
    rw [List.mem_range] at hi'
    by_cases h1 : c i = c (i + 1) ∨ c (i + 1) = c (i + 2)
    · rw [hcase i hi' h1] at he
      simpa using he.symm
    · push Not at h1
      have hl1 := lt_of_le_of_ne (hmono1 i) h1.1
      have hl2 := lt_of_le_of_ne (hmono1 (i + 1)) h1.2
      obtain ⟨m, hm⟩ := centers_int nfilters (2 * h) srate lo hi hs hlo hlh h0.ne' (i + 1)
      have h3 : m < h := by
        have : (m : ℝ) < h := by
          rw [← hm]
          exact lt_of_lt_of_le hl2 (le_trans (hmono _ _ (by omega)) hlast)
        exact_mod_cast this
      obtain ⟨g, hg, -⟩ := C129_triangle (c (i + 1)) (c i) (c (i + 2)) h hl1 hl2 (by rw [hcdef, hm]; positivity)
        ⟨m, h3, by rw [← hm]; exact hl1.le, by rw [← hm]⟩ ⟨m, h3, by rw [← hm], by rw [← hm]; exact hl2.le⟩
      rw [hg] at he
      simp at he
  · obtain ⟨i, hi', hci⟩ := hc
    by_cases h1 : i < nfilters
    · exact ⟨i, List.mem_range.2 h1, _, hcase i h1 (.inl hci)⟩
    · obtain ⟨j, hj⟩ : ∃ j, i = j + 1 := ⟨i - 1, by omega⟩
      rw [hj] at hci
      exact ⟨j, List.mem_range.2 (by omega), _, hcase j (by omega) (.inr hci)⟩

/-- With more filters than frequencies there never is a filter bank. -/
theorem C129_too_many_filters (nfilters h : ℕ) (srate lo hi : ℝ) (hs : 0 < srate) (hlo : 0 ≤ lo) (hlh : lo ≤ hi)
    (h0 : 0 < hi) (hhi : hi ≤ srate / 2) (hn : 0 < nfilters) (hmany : h ≤ nfilters) :
    createFbank nfilters (2 * h) srate lo hi = .error .valueError := by
  apply C129_refused nfilters h srate lo hi hs hlo hlh h0 hhi hn
  by_contra hcon
  push Not at hcon
  have hlast : centers nfilters (2 * h) srate lo hi (nfilters + 1) ≤ h := by
    rw [centers_last _ _ _ _ _ h0]
    have h1 : ((2 * h : ℕ) : ℝ) * hi / srate ≤ h := by
      rw [div_le_iff₀ hs]
      push_cast
      nlinarith [(Nat.cast_nonneg h : (0 : ℝ) ≤ h)]
    exact_mod_cast le_trans (Int.floor_le _) h1
  have hgrow : ∀ i, i ≤ nfilters + 1 → (i : ℝ) ≤ centers nfilters (2 * h) srate lo hi i := by
    intro i
    induction i with
    | zero =>
      intro _
      obtain ⟨m, hm⟩ := centers_int nfilters (2 * h) srate lo hi hs hlo hlh h0.ne' 0
      rw [hm]
      simp
    | succ i ih =>
      intro hi'
      have h1 := ih (by omega)
      have h2 := lt_of_le_of_ne (centers_mono nfilters (2 * h) srate lo hi hs hlo hlh h0.ne' i) (hcon i (by omega))
      obtain ⟨m, hm⟩ := centers_int nfilters (2 * h) srate lo hi hs hlo hlh h0.ne' i
      obtain ⟨m', hm'⟩ := centers_int nfilters (2 * h) srate lo hi hs hlo hlh h0.ne' (i + 1)
      rw [hm, hm'] at h2
      rw [hm] at h1
      rw [hm']
      have h3 : i ≤ m := by exact_mod_cast h1
      have h4 : m < m' := by exact_mod_cast h2
      exact_mod_cast (by omega : i + 1 ≤ m')
  have h5 := le_trans (hgrow (nfilters + 1) (le_refl _)) hlast
  have h6 : nfilters + 1 ≤ h := by exact_mod_cast h5
  omega

/-- The default sampling rate with 256 frequencies and 300 filters. -/
example : createFbank 300 (2 * 256) 16000 20 8000 = .error .valueError :=
  C129_too_many_filters 300 256 16000 20 8000 (by norm_num) (by norm_num) (by norm_num) (by norm_num) (by norm_num)
    (by norm_num) (by norm_num)

/-- A condition on the settings that gives a filter bank: the mel scale divides the range into parts whose ratio (of
`700 + f`) is constant, and the first part must contain one frequency of the FFT. -/
theorem C129_enough (nfilters h : ℕ) (srate lo hi : ℝ) (hs : 0 < srate) (hh : 0 < h) (hlo : 0 ≤ lo) (h0 : 0 < hi)
    (hd : (1 + srate / ((2 * h : ℕ) * (700 + lo))) ^ (nfilters + 1) ≤ (700 + hi) / (700 + lo)) (i : ℕ) :
    centers nfilters (2 * h) srate lo hi i < centers nfilters (2 * h) srate lo hi (i + 1) := by
  set F : ℝ := ((2 * h : ℕ) : ℝ) with hF
  have hFpos : 0 < F := by rw [hF]; exact_mod_cast (by omega : 0 < 2 * h)
  set d := srate / (F * (700 + lo)) with hddef
  have hdpos : 0 < d := by positivity
  set q := exp ((hz2mel hi - hz2mel lo) / (((nfilters + 2 : ℕ) : ℝ) - 1) / 1127) with hq
  have hqpow : q ^ (nfilters + 1) = (700 + hi) / (700 + lo) := by
    rw [hq, ← Real.exp_nat_mul]
    have e : ((nfilters + 1 : ℕ) : ℝ) * ((hz2mel hi - hz2mel lo) / (((nfilters + 2 : ℕ) : ℝ) - 1) / 1127) =
        log (1 + hi / 700) - log (1 + lo / 700) := by
      unfold hz2mel
      have : ((nfilters + 2 : ℕ) : ℝ) - 1 = ((nfilters + 1 : ℕ) : ℝ) := by push_cast; ring
      rw [this]
      have h1 : ((nfilters + 1 : ℕ) : ℝ) ≠ 0 := by positivity
      field_simp
    rw [e, Real.exp_sub, Real.exp_log (by positivity), Real.exp_log (by positivity)]
    field_simp
  have hq1 : 1 + d ≤ q := by
    by_contra hlt
    push Not at hlt
    have := pow_lt_pow_left₀ hlt (exp_pos _).le (Nat.succ_ne_zero nfilters)
    rw [Nat.succ_eq_add_one, hqpow] at this
    linarith
  have hhz : ∀ j, mel2hz (linspace (hz2mel lo) (hz2mel hi) (nfilters + 2) j) = (700 + lo) * q ^ j - 700 := by
    intro j
    unfold linspace mel2hz
    rw [if_neg (by omega), hq, ← Real.exp_nat_mul]
    have e : (hz2mel lo + j * ((hz2mel hi - hz2mel lo) / (((nfilters + 2 : ℕ) : ℝ) - 1))) / 1127 =
        log (1 + lo / 700) + j * ((hz2mel hi - hz2mel lo) / (((nfilters + 2 : ℕ) : ℝ) - 1) / 1127) := by
      have : hz2mel lo / 1127 = log (1 + lo / 700) := by unfold hz2mel; ring
      rw [← this]
      ring
    rw [e, Real.exp_add, Real.exp_log (by positivity)]
    ring
  have hstep : F * mel2hz (linspace (hz2mel lo) (hz2mel hi) (nfilters + 2) i) / srate + 1 ≤
      F * mel2hz (linspace (hz2mel lo) (hz2mel hi) (nfilters + 2) (i + 1)) / srate := by
    rw [hhz, hhz, pow_succ]
    have h1 : 1 ≤ q ^ i := one_le_pow₀ (by linarith)
    have h2 : d ≤ q ^ i * (q - 1) := by nlinarith
    have h3 : F * (700 + lo) / srate * d = 1 := by
      rw [hddef]
      field_simp
    have h4 : F * (700 + lo) / srate * d ≤ F * (700 + lo) / srate * (q ^ i * (q - 1)) :=
      mul_le_mul_of_nonneg_left h2 (by positivity)
    rw [h3] at h4
    have e : F * ((700 + lo) * (q ^ i * q) - 700) / srate - F * ((700 + lo) * q ^ i - 700) / srate =
        F * (700 + lo) / srate * (q ^ i * (q - 1)) := by ring
    linarith
  unfold centers
  dsimp only
  rw [if_neg h0.ne', ← hF]
  have h5 := Int.floor_le_floor hstep
  rw [Int.floor_add_one] at h5
  exact_mod_cast (by omega : _ < _)

/-- The default configuration (26 filters from 20 to 8000 Hz, 512 points at 16 kHz) has a filter bank. -/
theorem default_fbank (i : ℕ) :
    centers 26 (2 * 256) 16000 20 8000 i < centers 26 (2 * 256) 16000 20 8000 (i + 1) :=
  C129_enough 26 256 16000 20 8000 (by norm_num) (by norm_num) (by norm_num) (by norm_num) (by norm_num) i

example : ∃ fs, createFbank 26 512 16000 20 8000 = .ok fs ∧ fs.length = 26 := by
  obtain ⟨fs, h1, h2, -⟩ := C129_fbank_partial 26 256 16000 20 8000 (by norm_num) (by norm_num) (by norm_num)
    (by norm_num) (by norm_num) fun i _ => default_fbank i
  exact ⟨fs, h1, h2⟩

/-- The code violates the property for the extraction of features: the filter bank is created for 16 kHz whatever
the sampling rate of the configuration. At 8 kHz, with a high cut-off of 4 kHz, no filter reads the upper half of
the spectrum. -/
theorem C129_rate_ignored (nfilters h : ℕ) (lo : ℝ) (hlo : 0 ≤ lo) (hlh : lo ≤ 4000)
    (hc : ∀ i ≤ nfilters, centers nfilters (2 * h) 16000 lo 4000 i < centers nfilters (2 * h) 16000 lo 4000 (i + 1))
    (c : Conf) (hfb : c.applyFbank = true) (hnf : c.nfilters = nfilters) (hcl : c.lowfreq = lo)
    (hch : c.hifreq = 4000) (s1 s2 : Mat) (hcol : s1.cols = s2.cols) (hcol2 : s1.cols = h)
    (heq : ∀ t f, 2 * f ≤ h → s1.at_ t f = s2.at_ t f) :
    ∃ l1 l2, logSpectrum { c with srate := 8000 } s1 (2 * h) = .ok l1 ∧ logSpectrum { c with srate := 8000 } s2 (2 * h) = .ok l2 ∧
      ∀ t i, l1.at_ t i = l2.at_ t i := by
  obtain ⟨fs, h1, h2, h3, -⟩ := C129_fbank_partial nfilters h 16000 lo 4000 (by norm_num) hlo hlh (by norm_num)
    (by norm_num) hc
  unfold logSpectrum
  rw [if_pos hfb, hnf, hcl, hch, h1]
  rw [if_pos hfb]
  refine ⟨_, _, rfl, rfl, fun t i => ?_⟩
  dsimp only
  congr 2
  rw [hcol.symm]
  refine Finset.sum_congr rfl fun k hk => ?_
  rw [Finset.mem_range, hcol2] at hk
  by_cases hk2 : 2 * k ≤ h
  · rw [heq t k hk2]
  · by_cases hi : i < fs.length
    · have hlast : centers nfilters (2 * h) 16000 lo 4000 (nfilters + 1) ≤ k := by
        rw [centers_last _ _ _ _ _ (by norm_num)]
        have h4 : (h : ℝ) < 2 * k := by exact_mod_cast (by omega : h < 2 * k)
        have h5 : ((2 * h : ℕ) : ℝ) * 4000 / 16000 ≤ k := by
          push_cast
          linarith
        exact_mod_cast le_trans (Int.floor_le _) h5
      have hmono : ∀ a b, a ≤ b → centers nfilters (2 * h) 16000 lo 4000 a ≤ centers nfilters (2 * h) 16000 lo 4000 b := by
        intro a b hab
        induction b, hab using Nat.le_induction with
        | base => exact le_refl _
        | succ j _ ihj => exact le_trans ihj (centers_mono _ _ _ _ _ (by norm_num) hlo hlh (by norm_num) j)
      have hz : (fs.getD i fun _ => 0) k = 0 := by
        rw [List.getD_eq_getElem _ _ hi, h3 i hi k hk]
        exact tent_outside _ _ _ _ (hc i (by omega)) (hc (i + 1) (by omega))
          (.inr (le_trans (hmono _ _ (by omega)) hlast))
      rw [hz]
      ring
    · rw [List.getD_eq_default _ _ (by omega)]
      ring

/-- The hypothesis holds with 20 filters from 20 to 4000 Hz and 256 points. -/
example (i : ℕ) : centers 20 (2 * 128) 16000 20 4000 i < centers 20 (2 * 128) 16000 20 4000 (i + 1) :=
  C129_enough 20 128 16000 20 4000 (by norm_num) (by norm_num) (by norm_num) (by norm_num) (by norm_num) i

/-! ## C130: cepstrum -/

/-- The transform is orthonormal: the normalised cosines are orthogonal to each other and to the constant, with
norm 1. -/
theorem C130_orthonormal (N m m' : ℕ) (hm : m + 1 < N) (hm' : m' + 1 < N) :
    ∑ n ∈ Finset.range N, (Spectrum.norm N * dctBasis N n m) * (Spectrum.norm N * dctBasis N n m') = (if m = m' then 1 else 0) ∧
    ∑ n ∈ Finset.range N, Spectrum.norm N * dctBasis N n m = 0 := by
  have hN : (0 : ℝ) < N := by exact_mod_cast (by omega : 0 < N)
  have hn : Spectrum.norm N * Spectrum.norm N = 2 / N := by
    unfold Spectrum.norm
    exact Real.mul_self_sqrt (by positivity)
  constructor
  · have e : ∀ n, (Spectrum.norm N * dctBasis N n m) * (Spectrum.norm N * dctBasis N n m') =
        2 / N * (dctBasis N n m * dctBasis N n m') := fun n => by rw [← hn]; ring
    rw [Finset.sum_congr rfl fun n _ => e n, ← Finset.mul_sum]
    split
    · rename_i h
      subst h
      rw [dct_square N m (by omega) hm]
      field_simp
    · rename_i h
      rw [dct_orthogonal N m m' (by omega) (by omega) (by omega) h, mul_zero]
  · rw [← Finset.mul_sum, dct_sum_zero N m (by omega) (by omega), mul_zero]

/-- A constant added to the log-spectrum (a gain) does not change the cepstrum. -/
theorem C130_gain (N m : ℕ) (hm : m + 1 < 2 * N) (L c : ℝ) (x : ℕ → ℝ) :
    cepstrum N L (fun n => x n + c) m = cepstrum N L x m := by
  unfold cepstrum
  congr 2
  rw [← add_zero (∑ n ∈ Finset.range N, x n * dctBasis N n m),
    show (0 : ℝ) = c * ∑ n ∈ Finset.range N, dctBasis N n m by rw [dct_sum_zero N m (by omega) hm, mul_zero],
    Finset.mul_sum, ← Finset.sum_add_distrib]
  exact Finset.sum_congr rfl fun n _ => by ring

/-- With as many coefficients as filters, the last one is always zero. -/
theorem C130_last_zero (N : ℕ) (hN : 0 < N) (L : ℝ) (x : ℕ → ℝ) : cepstrum N L x (N - 1) = 0 := by
  unfold cepstrum
  rw [Finset.sum_eq_zero fun n _ => by rw [dct_last N n hN, mul_zero]]
  ring

/-- The liftering coefficients are at least 1, up to the liftering constant (22 for 13 coefficients by default). -/
theorem C130_lifter (L : ℝ) (m : ℕ) (hL : (m : ℝ) + 1 ≤ L) : 1 ≤ lifter L m := by
  have hpos : 0 < L := by have : (0 : ℝ) ≤ m := Nat.cast_nonneg m; linarith
  unfold lifter
  have : 0 ≤ sin (π * (1 + m) / L) := by
    apply sin_nonneg_of_nonneg_of_le_pi
    · positivity
    · rw [div_le_iff₀ hpos]
      nlinarith [pi_pos]
  have h2 : 0 ≤ L / 2 * sin (π * (1 + m) / L) := by positivity
  linarith

/-- The log-spectrum is recovered from its mean (the energy) and the cepstrum with one coefficient less than there
are filters. -/
theorem C130_inverse (N : ℕ) (L : ℝ) (x : ℕ → ℝ) (hl : ∀ m, m + 1 < N → lifter L m ≠ 0) (n : ℕ) (hn : n < N) :
    x n = (∑ k ∈ Finset.range N, x k) / N +
      Spectrum.norm N * ∑ m ∈ Finset.range (N - 1), cepstrum N L x m / lifter L m * dctBasis N n m := by
  have hN : (0 : ℝ) < N := by exact_mod_cast (by omega : 0 < N)
  obtain ⟨M, rfl⟩ : ∃ M, N = M + 1 := ⟨N - 1, by omega⟩
  set N := M + 1 with hNdef
  let B : Matrix (Fin N) (Fin N) ℝ := fun i k => if i.1 = 0 then 1 / sqrt N else Spectrum.norm N * dctBasis N k (i.1 - 1)
  have hsq : 1 / sqrt N * (1 / sqrt N) = 1 / (N : ℝ) := by
    rw [div_mul_div_comm, Real.mul_self_sqrt hN.le, one_mul]
  have hBB : B * B.transpose = 1 := by
    ext i j
    rw [Matrix.mul_apply, Matrix.one_apply]
    change ∑ k, B i k * B j k = _
    simp only [B]
    by_cases hi : i.1 = 0
    · by_cases hj : j.1 = 0
      · have hij : i = j := Fin.ext (by omega)
        rw [if_pos hij]
        simp only [if_pos hi, if_pos hj, hsq, Finset.sum_const, Finset.card_univ, Fintype.card_fin, nsmul_eq_mul]
        field_simp
      · rw [if_neg (by rintro rfl; exact hj hi)]
        simp only [if_pos hi, if_neg hj]
        rw [← Finset.mul_sum, Fin.sum_univ_eq_sum_range (fun k => Spectrum.norm N * dctBasis N k (j.1 - 1)) N,
          (C130_orthonormal N (j.1 - 1) (j.1 - 1) (by omega) (by omega)).2, mul_zero]
    · by_cases hj : j.1 = 0
      · rw [if_neg (by rintro rfl; exact hi hj)]
        simp only [if_neg hi, if_pos hj]
        rw [← Finset.sum_mul, Fin.sum_univ_eq_sum_range (fun k => Spectrum.norm N * dctBasis N k (i.1 - 1)) N,
          (C130_orthonormal N (i.1 - 1) (i.1 - 1) (by omega) (by omega)).2, zero_mul]
      · simp only [if_neg hi, if_neg hj]
        rw [Fin.sum_univ_eq_sum_range (fun k => Spectrum.norm N * dctBasis N k (i.1 - 1) *
          (Spectrum.norm N * dctBasis N k (j.1 - 1))) N, (C130_orthonormal N (i.1 - 1) (j.1 - 1) (by omega) (by omega)).1]
        by_cases hij : i = j
        · rw [if_pos (by rw [hij]), if_pos hij]
        · rw [if_neg (fun h => hij (Fin.ext (by omega))), if_neg hij]
  have hTB : B.transpose * B = 1 := mul_eq_one_comm.1 hBB
  have hx : ∑ i : Fin N, B i ⟨n, hn⟩ * ∑ k : Fin N, B i k * x k = x n := by
    have := congrFun (congrArg (fun A : Matrix (Fin N) (Fin N) ℝ => A.mulVec fun k => x k) hTB) ⟨n, hn⟩
    simp only [Matrix.one_mulVec, ← Matrix.mulVec_mulVec] at this
    simpa [Matrix.mulVec, dotProduct, Matrix.transpose_apply] using this
  rw [← hx, Fin.sum_univ_succ]
  congr 1
  · simp only [B, Fin.val_zero, if_true]
    rw [← Finset.mul_sum, ← mul_assoc, hsq, Fin.sum_univ_eq_sum_range (fun k => x k) N]
    ring
  · rw [Finset.mul_sum, show N - 1 = M by omega, ← Fin.sum_univ_eq_sum_range
      (fun m => Spectrum.norm N * (cepstrum N L x m / lifter L m * dctBasis N n m)) M]
    refine Finset.sum_congr rfl fun m _ => ?_
    have hne := hl m.1 (by omega)
    simp only [B, Fin.val_succ, Nat.add_sub_cancel, Nat.succ_ne_zero, if_false]
    rw [Fin.sum_univ_eq_sum_range (fun k => Spectrum.norm N * dctBasis N k m.1 * x k) N]
    unfold cepstrum
    have : ∑ k ∈ Finset.range N, Spectrum.norm N * dctBasis N k m.1 * x k =
        (∑ k ∈ Finset.range N, x k * dctBasis N k m.1) * Spectrum.norm N := by
      rw [Finset.sum_mul]
      exact Finset.sum_congr rfl fun k _ => by ring
    rw [this]
    field_simp

example : cepstrum 2 22 (fun n => if n = 0 then 1 else 0) 1 = 0 := C130_last_zero 2 (by norm_num) 22 _

/-! ## C131: features of a signal -/

theorem columns_length (m : Mat) : (columns m).length = m.cols := by
  unfold columns
  rw [List.length_map, List.length_range]

theorem columns_rows (m : Mat) : ∀ col ∈ columns m, col.length = m.rows := by
  intro col hcol
  unfold columns at hcol
  obtain ⟨j, -, rfl⟩ := List.mem_map.1 hcol
  rw [List.length_map, List.length_range]

/-- Whatever the steps, the features keep one row by frame; the number of features is (coefficients, filters or
frequencies, plus one for the energy) times (one plus the order of the deltas). -/
theorem C131_shape (c : Conf) (len : ℕ) (x : ℕ → ℝ) (hflen : 0 < c.flen) (hfrate : 0 < c.frate) (h : c.flen ≤ len)
    (hn : 0 < c.nfilters) (hl : c.lcoeff ≠ 0) (hw : 0 < c.deltaWinlen)
    (hfb : c.applyFbank = true → ∃ fs, createFbank c.nfilters (2 ^ (Nat.log 2 c.flen + 1)) 16000 c.lowfreq c.hifreq = .ok fs)
    (hdct : c.applyDct = true → c.applyFbank = true) :
    ∃ out, extract c len x = .ok out ∧ (∀ col ∈ out, col.length = (len - c.flen) / c.frate + 1) ∧
      out.length = ((if c.applyDct then c.nDct else if c.applyFbank then c.nfilters else 2 ^ Nat.log 2 c.flen) +
        (if c.addEnergy then 1 else 0)) * (1 + if c.applyDeltas then c.deltaOrder else 0) := by
  obtain ⟨spec, hs1, hs2, hs3, -⟩ := C128_shape len c.flen c.frate c.preemph x hflen hfrate h
  have hlm : ∃ lm, logSpectrum c spec (2 ^ (Nat.log 2 c.flen + 1)) = .ok lm ∧ lm.rows = spec.rows ∧
      lm.cols = if c.applyFbank then c.nfilters else 2 ^ Nat.log 2 c.flen := by
    unfold logSpectrum
    by_cases hb : c.applyFbank = true
    · obtain ⟨fs, hfs⟩ := hfb hb
      rw [if_pos hb, hfs, if_pos hb]
      refine ⟨_, rfl, rfl, ?_⟩
      dsimp only
      unfold createFbank at hfs
      rw [Spectrum.listComp_length _ _ _ hfs, List.length_range]
    · rw [if_neg hb, if_neg hb]
      exact ⟨_, rfl, rfl, hs3⟩
  obtain ⟨lm, hl1, hl2, hl3⟩ := hlm
  have ht : ∃ feats, transform c lm = .ok feats ∧ feats.rows = lm.rows ∧
      feats.cols = if c.applyDct then c.nDct else lm.cols := by
    unfold transform
    rw [if_neg (by omega)]
    by_cases hd : c.applyDct = true
    · rw [if_pos hd, if_neg (by rw [hl3, if_pos (hdct hd)]; simp), if_neg hl, if_pos hd]
      exact ⟨_, rfl, rfl, rfl⟩
    · rw [if_neg hd, if_neg hd]
      exact ⟨_, rfl, rfl, rfl⟩
  obtain ⟨feats, ht1, ht2, ht3⟩ := ht
  have he1 : (addEnergy c lm feats).rows = (len - c.flen) / c.frate + 1 := by
    unfold addEnergy
    split <;> simp [ht2, hl2, hs2]
  have he2 : (addEnergy c lm feats).cols = (if c.applyDct then c.nDct else if c.applyFbank then c.nfilters else
      2 ^ Nat.log 2 c.flen) + (if c.addEnergy then 1 else 0) := by
    rw [← hl3, ← ht3]
    unfold addEnergy
    split <;> simp [*]
  have hcr : ∀ col ∈ columns (addEnergy c lm feats), col.length = (len - c.flen) / c.frate + 1 := by
    intro col hcol
    rw [columns_rows _ col hcol, he1]
  have hdelta : ∃ out, (if c.applyDeltas then Features.addDeltas (List.replicate c.deltaOrder c.deltaWinlen)
      (columns (addEnergy c lm feats)) else .ok (columns (addEnergy c lm feats))) = .ok out ∧
      (∀ col ∈ out, col.length = (len - c.flen) / c.frate + 1) ∧
      out.length = (addEnergy c lm feats).cols * (1 + if c.applyDeltas then c.deltaOrder else 0) := by
    by_cases hd : c.applyDeltas = true
    · obtain ⟨out, h1, h2, h3, -⟩ := C58_shape (List.replicate c.deltaOrder c.deltaWinlen)
        (fun w hw' => by rw [List.eq_of_mem_replicate hw']; exact hw) (columns (addEnergy c lm feats)) _
        (Nat.succ_pos _) hcr
      rw [if_pos hd, if_pos hd]
      exact ⟨out, h1, h3, by rw [h2, columns_length, List.length_replicate]⟩
    · rw [if_neg hd, if_neg hd]
      exact ⟨_, rfl, hcr, by rw [columns_length, add_zero, mul_one]⟩
  obtain ⟨out, hd1, hd2, hd3⟩ := hdelta
  unfold extract
  rw [if_neg (by omega), hs1]
  dsimp only
  rw [hl1]
  dsimp only
  unfold finish
  rw [ht1]
  dsimp only
  rw [hd1]
  refine ⟨_, rfl, ?_, ?_⟩
  · intro col hcol
    split at hcol
    · obtain ⟨col', h1, rfl⟩ := List.mem_map.1 hcol
      unfold meanNorm
      rw [List.length_map]
      exact hd2 col' h1
    · exact hd2 col hcol
  · rw [← he2, ← hd3]
    split <;> simp

/-- The default configuration gives 42 features for each of the 98 frames of a second. -/
example (x : ℕ → ℝ) : ∃ out, extract ⟨16000, 0.97, 400, 160, true, 26, 8000, 20, true, 2, 2, true, 13, 22, false, true⟩
    16000 x = .ok out ∧ (∀ col ∈ out, col.length = 98) ∧ out.length = 42 := by
  have hlog : Nat.log 2 400 = 8 := by decide +kernel
  exact C131_shape ⟨16000, 0.97, 400, 160, true, 26, 8000, 20, true, 2, 2, true, 13, 22, false, true⟩ 16000 x
    (by norm_num) (by norm_num) (by norm_num) (by norm_num) (by norm_num) (by norm_num)
    (fun _ => by
      dsimp only
      rw [hlog]
      obtain ⟨fs, h1, -⟩ := C129_fbank_partial 26 256 16000 20 8000 (by norm_num) (by norm_num) (by norm_num)
        (by norm_num) (by norm_num) fun i _ => default_fbank i
      exact ⟨fs, h1⟩) (fun _ => rfl)

/-- The features do not depend on a constant added to the signal, whatever the configuration. -/
theorem C131_offset (c : Conf) (len : ℕ) (hlen : 0 < len) (x : ℕ → ℝ) (a : ℝ) :
    extract c len (fun i => x i + a) = extract c len x := by
  unfold extract
  rw [C128_offset len c.flen c.frate hlen]

/-- With the mean normalisation every feature has mean zero over the frames of the utterance. -/
theorem C131_zero_mean (c : Conf) (hm : c.uttMnorm = true) (len : ℕ) (x : ℕ → ℝ) (out : List (List ℝ))
    (h : extract c len x = .ok out) : ∀ col ∈ out, col.sum = 0 := by
  have key : ∀ l : List ℝ, (meanNorm l).sum = 0 := by
    intro l
    unfold meanNorm
    by_cases hl : l.length = 0
    · rw [List.length_eq_zero_iff.1 hl]
      rfl
    · have hl' : (l.length : ℝ) ≠ 0 := by exact_mod_cast hl
      have e : ∀ (k : List ℝ) (v : ℝ), (k.map fun u => u - v).sum = k.sum - k.length * v := by
        intro k v
        induction k with
        | nil => simp
        | cons a k ih =>
          rw [List.map_cons, List.sum_cons, ih, List.sum_cons, List.length_cons]
          push_cast
          ring
      rw [e]
      field_simp
      ring
  have h2 : ∃ cols : List (List ℝ), out = cols.map meanNorm := by
    unfold extract finish at h
    split at h
    · simp at h
    · split at h
      · simp at h
      · split at h
        · simp at h
        · dsimp only at h
          split at h
          · simp at h
          · split at h
            · simp at h
            · rename_i cols _
              first | rw [if_pos hm] at h | skip
              exact ⟨cols, (Except.ok.inj h).symm⟩
  obtain ⟨cols, rfl⟩ := h2
  intro col hcol
  obtain ⟨l, -, rfl⟩ := List.mem_map.1 hcol
  exact key l

/-- Two columns differ by a constant. -/
def Shifted (a b : List ℝ) : Prop := ∃ k : ℝ, b = a.map (· + k)

theorem meanNorm_shifted (a b : List ℝ) (ha : a ≠ []) (h : Shifted a b) : meanNorm b = meanNorm a := by
  obtain ⟨k, rfl⟩ := h
  unfold meanNorm
  have hl : ((a.length : ℕ) : ℝ) ≠ 0 := by
    exact_mod_cast fun h => ha (List.length_eq_zero_iff.1 h)
  have e : ∀ l : List ℝ, (l.map (· + k)).sum = l.sum + l.length * k := by
    intro l
    induction l with
    | nil => simp
    | cons a l ih =>
      rw [List.map_cons, List.sum_cons, ih, List.sum_cons, List.length_cons]
      push_cast
      ring
  rw [List.map_map, e, List.length_map]
  refine List.map_congr_left fun v _ => ?_
  simp only [Function.comp_apply]
  field_simp
  ring

theorem deltaCol_shifted (w : ℕ) (a b : List ℝ) (h : Shifted a b) : Spec.deltaCol w b = Spec.deltaCol w a := by
  obtain ⟨k, rfl⟩ := h
  unfold Spec.deltaCol
  rw [List.length_map]
  refine List.map_congr_left fun t ht => ?_
  rw [List.mem_range] at ht
  have e : ∀ i < a.length, (a.map (· + k)).getD i 0 = a.getD i 0 + k := by
    intro i hi
    rw [List.getD_eq_getElem _ _ (by rw [List.length_map]; exact hi), List.getD_eq_getElem _ _ hi, List.getElem_map]
  unfold Spec.deltaAt
  rw [List.length_map]
  congr 1
  refine Finset.sum_congr rfl fun j _ => ?_
  rw [e _ (by omega), e _ (by omega)]
  ring

theorem deltaBlocks_shifted (ws : List ℕ) (a b : List (List ℝ)) (h : List.Forall₂ Shifted a b) :
    List.Forall₂ Shifted (Spec.deltaBlocks ws a) (Spec.deltaBlocks ws b) := by
  cases ws with
  | nil => exact h
  | cons w ws =>
    have e : b.map (Spec.deltaCol w) = a.map (Spec.deltaCol w) := by
      induction h with
      | nil => rfl
      | cons h1 _ ih => rw [List.map_cons, List.map_cons, ih, deltaCol_shifted w _ _ h1]
    unfold Spec.deltaBlocks
    rw [e]
    refine List.rel_append h ?_
    exact List.forall₂_same.2 fun l _ => ⟨0, by simp⟩

/-- With the mean normalisation, a constant channel is removed: two log-spectra which differ at every frame by the
same vector have the same features, with or without the cosine transform, the energy and the deltas. -/
theorem C131_channel (c : Conf) (hm : c.uttMnorm = true) (hw : 0 < c.deltaWinlen) (lm lm' : Mat) (b : ℕ → ℝ)
    (hr0 : 0 < lm.rows) (hr : lm'.rows = lm.rows) (hc : lm'.cols = lm.cols)
    (h : ∀ t n, lm'.at_ t n = lm.at_ t n + b n) : finish c lm' = finish c lm := by
  have hcep : ∀ t m, cepstrum c.nfilters c.lcoeff (lm'.at_ t) m =
      cepstrum c.nfilters c.lcoeff (lm.at_ t) m + cepstrum c.nfilters c.lcoeff b m := by
    intro t m
    unfold cepstrum
    rw [← add_mul, ← add_mul, ← Finset.sum_add_distrib]
    congr 2
    exact Finset.sum_congr rfl fun n _ => by rw [h]; ring
  have ht : (∃ e, transform c lm = .error e ∧ transform c lm' = .error e) ∨
      ∃ (f f' : Mat) (v : ℕ → ℝ), transform c lm = .ok f ∧ transform c lm' = .ok f' ∧ f.rows = lm.rows ∧ f'.rows = lm.rows ∧
        f'.cols = f.cols ∧ ∀ t j, f'.at_ t j = f.at_ t j + v j := by
    unfold transform
    rw [hc]
    split
    · exact .inl ⟨_, rfl, rfl⟩
    · split
      · split
        · exact .inl ⟨_, rfl, rfl⟩
        · split
          · exact .inl ⟨_, rfl, rfl⟩
          · exact .inr ⟨_, _, fun m => cepstrum c.nfilters c.lcoeff b m, rfl, rfl, rfl, hr, rfl, hcep⟩
      · exact .inr ⟨_, _, b, rfl, rfl, rfl, hr, hc, h⟩
  unfold finish
  rcases ht with ⟨e, h1, h2⟩ | ⟨f, f', v, h1, h2, h3, h4, h5, h6⟩
  · rw [h1, h2]
  · rw [h1, h2]
    dsimp only
    have hen : (addEnergy c lm' f').rows = lm.rows ∧ (addEnergy c lm f).rows = lm.rows ∧
        (addEnergy c lm' f').cols = (addEnergy c lm f).cols ∧
        ∃ u : ℕ → ℝ, ∀ t j, (addEnergy c lm' f').at_ t j = (addEnergy c lm f).at_ t j + u j := by
      unfold addEnergy
      split
      · refine ⟨h4, h3, by dsimp only; rw [h5], fun j => if j = 0 then (∑ n ∈ Finset.range lm.cols, b n) *
          Spectrum.norm c.nfilters else v (j - 1), fun t j => ?_⟩
        dsimp only
        rw [hc]
        split
        · rw [← add_mul, ← Finset.sum_add_distrib]
          congr 1
          exact Finset.sum_congr rfl fun n _ => h t n
        · exact h6 t _
      · exact ⟨h4, h3, h5, v, h6⟩
    obtain ⟨r1, r2, r3, u, hu⟩ := hen
    have hcols : List.Forall₂ Shifted (columns (addEnergy c lm f)) (columns (addEnergy c lm' f')) := by
      unfold columns
      rw [r3, r1, r2, List.forall₂_map_left_iff, List.forall₂_map_right_iff]
      refine List.forall₂_same.2 fun j _ => ⟨u j, ?_⟩
      rw [List.map_map]
      exact List.map_congr_left fun t _ => hu t j
    have hne1 : ∀ col ∈ columns (addEnergy c lm f), col ≠ [] := by
      intro col hcol h0
      have := columns_rows _ col hcol
      rw [h0, r2] at this
      simp at this
      omega
    have hne2 : ∀ col ∈ columns (addEnergy c lm' f'), col ≠ [] := by
      intro col hcol h0
      have := columns_rows _ col hcol
      rw [h0, r1] at this
      simp at this
      omega
    have hlast : ∀ a b : List (List ℝ), List.Forall₂ Shifted a b → (∀ col ∈ a, col ≠ []) →
        b.map meanNorm = a.map meanNorm := by
      intro a b hab
      induction hab with
      | nil => intro _; rfl
      | cons h7 _ ih =>
        intro hne
        rw [List.map_cons, List.map_cons, ih fun col hcol => hne col (List.mem_cons_of_mem _ hcol),
          meanNorm_shifted _ _ (hne _ List.mem_cons_self) h7]
    by_cases hd : c.applyDeltas = true
    · have hws : ∀ w ∈ List.replicate c.deltaOrder c.deltaWinlen, 0 < w := fun w hw' => by
        rw [List.eq_of_mem_replicate hw']; exact hw
      rw [if_pos hd, if_pos hd, Props.C58_blocks _ hws _ hne1, Props.C58_blocks _ hws _ hne2]
      dsimp only
      rw [if_pos hm, if_pos hm]
      refine congrArg Except.ok (hlast _ _ (deltaBlocks_shifted _ _ _ hcols) ?_)
      obtain ⟨out, o1, -, o3, -⟩ := Props.C58_shape _ hws (columns (addEnergy c lm f)) lm.rows hr0
        fun col hcol => by rw [columns_rows _ col hcol, r2]
      rw [Props.C58_blocks _ hws _ hne1] at o1
      intro col hcol h0
      have := o3 col (by rw [← Except.ok.inj o1]; exact hcol)
      rw [h0] at this
      simp at this
      omega
    · rw [if_neg hd, if_neg hd]
      dsimp only
      rw [if_pos hm, if_pos hm]
      exact congrArg Except.ok (hlast _ _ hcols hne1)

/-- Settings that are not in the default configuration are refused, the others are accepted. -/
theorem C131_settings (keys : List String) :
    (checkSettings keys = .ok () ↔ ∀ k ∈ keys, k ∈ settings) ∧
    (checkSettings keys = .error .runtimeError ↔ ∃ k ∈ keys, k ∉ settings) := by
  induction keys with
  | nil => simp [checkSettings]
  | cons k keys ih =>
    unfold checkSettings
    by_cases hk : k ∈ settings
    · rw [if_pos hk]
      refine ⟨ih.1.trans ?_, ih.2.trans ?_⟩
      · simp [hk]
      · simp [hk]
    · rw [if_neg hk]
      simp [hk]

example : checkSettings ["srate", "nfilter"] = .error .runtimeError := by decide +kernel

/-- The errors: a signal shorter than the window, cosine transform without filter bank of the right size, no
liftering constant. -/
theorem C131_errors (c : Conf) (lm : Mat) (hn : 0 < c.nfilters) (hd : c.applyDct = true) :
    (lm.cols ≠ c.nfilters → finish c lm = .error .valueError) ∧ (c.lcoeff = 0 → finish c lm = .error .valueError) := by
  unfold finish transform
  rw [if_neg (by omega), if_pos hd]
  constructor
  · intro h
    rw [if_pos h]
  · intro h
    by_cases h2 : lm.cols ≠ c.nfilters
    · rw [if_pos h2]
    · rw [if_neg h2, if_pos h]

end Verif.Props
