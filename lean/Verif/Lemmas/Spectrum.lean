import Verif.Spec.Spectrum
import Verif.Lemmas.Eval
import Verif.Props.Features

namespace Verif.Spectrum

open Verif Real SpectrumSpec

/-! ## Filters -/

theorem listComp_length {α β : Type} (f : α → Except Err β) (l : List α) (out : List β)
    (h : Eval.listComp f l = .ok out) : out.length = l.length := by
  induction l generalizing out with
  | nil => unfold Eval.listComp at h; cases h; rfl
  | cons a l ih =>
    unfold Eval.listComp at h
    cases h1 : f a with
    | error e => rw [h1] at h; simp at h
    | ok y =>
      cases h2 : Eval.listComp f l with
      | error e => rw [h1, h2] at h; simp at h
      | ok ys =>
        rw [h1, h2] at h
        cases h
        rw [List.length_cons, List.length_cons, ih ys h2]

theorem filter_range_interval (n a b : ℕ) (p : ℕ → Bool) (hp : ∀ f, p f = true ↔ a ≤ f ∧ f < b) :
    (List.range n).filter p = List.range' a (min n b - a) := by
  induction n with
  | zero => simp
  | succ n ih =>
    rw [List.range_succ, List.filter_append, ih]
    by_cases h : a ≤ n ∧ n < b
    · rw [List.filter_cons_of_pos ((hp n).2 h), List.filter_nil, min_eq_left (by omega), min_eq_left (by omega),
        show n + 1 - a = (n - a) + 1 by omega, List.range'_concat]
      congr 2
      omega
    · rw [List.filter_cons_of_neg (by rw [hp]; exact h), List.filter_nil, List.append_nil]
      congr 1
      omega

theorem between_eq (n : ℕ) (lo hi : ℝ) (hhi : 0 ≤ hi) :
    between n lo hi = List.range' ⌈lo⌉₊ (min n (⌊hi⌋₊ + 1) - ⌈lo⌉₊) := by
  unfold between
  apply filter_range_interval
  intro f
  rw [decide_eq_true_iff, Nat.ceil_le, Nat.lt_succ_iff, Nat.le_floor_iff hhi]

/-- The values `linspace` gives are those of the line. -/
theorem linspace_line (a m f : ℕ) (hf : f < m) (s t : ℝ) :
    linspace (s * a + t) (s * (a + m - 1 : ℕ) + t) m f = s * (a + f : ℕ) + t := by
  unfold linspace
  by_cases h1 : m = 1
  · subst h1
    rw [if_pos rfl, show f = 0 by omega]
    simp
  · rw [if_neg h1]
    have hm : ((m : ℝ) - 1) ≠ 0 := by
      intro h
      apply h1
      exact_mod_cast (by linarith : (m : ℝ) = 1)
    rw [Nat.cast_sub (by omega)]
    push_cast
    field_simp
    ring

theorem idxOf_range' (a m f : ℕ) (hf : f < m) : (List.range' a m).idxOf (a + f) = f := by
  have h := List.nodup_range' (s := a) (n := m) (step := 1)
  have := h.idxOf_getElem f (by simpa using hf)
  simpa using this

theorem triangle_ok (center start stop : ℝ) (n : ℕ) (h1 : start < center) (h2 : center < stop) (h0 : 0 ≤ center)
    (hup : ∃ f < n, start ≤ (f : ℝ) ∧ (f : ℝ) ≤ center) (hdown : ∃ f < n, center ≤ (f : ℝ) ∧ (f : ℝ) ≤ stop) :
    ∃ g, triangle center start stop n = .ok g ∧ ∀ f < n, g f = tent start center stop f := by
  have hA : 0 < center - start := by linarith
  have hB : 0 < stop - center := by linarith
  have key : ∀ lo hi : ℝ, 0 ≤ hi → (∃ f < n, lo ≤ (f : ℝ) ∧ (f : ℝ) ≤ hi) → ∃ a m, between n lo hi = List.range' a m ∧
      0 < m := by
    intro lo hi hhi ⟨f, hf, h3, h4⟩
    refine ⟨_, _, between_eq n lo hi hhi, ?_⟩
    have h5 := Nat.ceil_le.2 h3
    have h6 := Nat.le_floor h4
    omega
  have hmem : ∀ lo hi : ℝ, ∀ f, f ∈ between n lo hi ↔ f < n ∧ lo ≤ (f : ℝ) ∧ (f : ℝ) ≤ hi := by
    intro lo hi f
    unfold between
    simp
  obtain ⟨a, m, hu, hm⟩ := key _ _ h0 hup
  obtain ⟨b, l, hd, hl⟩ := key _ _ (by linarith) hdown
  unfold triangle
  rw [if_neg (by push Not; exact ⟨hA.ne', hB.ne'⟩)]
  dsimp only
  have e1 : (between n start center).head? = some a := by rw [hu, List.head?_range']; simp; omega
  have e2 : (between n start center).getLast? = some (a + m - 1) := by
    rw [hu, List.getLast?_range']; simp; omega
  have e3 : (between n center stop).head? = some b := by rw [hd, List.head?_range']; simp; omega
  have e4 : (between n center stop).getLast? = some (b + l - 1) := by
    rw [hd, List.getLast?_range']; simp; omega
  rw [e1, e2, e3, e4]
  refine ⟨_, rfl, fun f hf => ?_⟩
  by_cases hfd : f ∈ between n center stop
  · rw [if_pos hfd]
    have hb := (hmem _ _ _).1 hfd
    rw [hd, List.mem_range'_1] at hfd
    obtain ⟨j, rfl⟩ : ∃ j, f = b + j := ⟨f - b, by omega⟩
    rw [hd, idxOf_range' _ _ _ (by omega), List.length_range']
    have := linspace_line b l j (by omega) (-(1 / (stop - center))) (1 / (stop - center) * stop)
    have e5 : 1 / (stop - center) * (stop - (b : ℝ)) = -(1 / (stop - center)) * b + 1 / (stop - center) * stop := by ring
    have e6 : 1 / (stop - center) * (stop - ((b + l - 1 : ℕ) : ℝ)) =
      -(1 / (stop - center)) * (b + l - 1 : ℕ) + 1 / (stop - center) * stop := by ring
    rw [e5, e6, this]
    have e7 : -(1 / (stop - center)) * ((b + j : ℕ) : ℝ) + 1 / (stop - center) * stop =
      (stop - ((b + j : ℕ) : ℝ)) / (stop - center) := by ring
    rw [e7]
    unfold tent
    rw [min_eq_right, max_eq_right]
    · exact div_nonneg (by linarith [hb.2.2]) hB.le
    · rw [div_le_div_iff₀ hB hA]
      nlinarith [hb.2.1, hb.2.2]
  · rw [if_neg hfd]
    by_cases hfu : f ∈ between n start center
    · rw [if_pos hfu]
      have hb := (hmem _ _ _).1 hfu
      rw [hu, List.mem_range'_1] at hfu
      obtain ⟨j, rfl⟩ : ∃ j, f = a + j := ⟨f - a, by omega⟩
      rw [hu, idxOf_range' _ _ _ (by omega), List.length_range']
      have := linspace_line a m j (by omega) (1 / (center - start)) (-(1 / (center - start) * start))
      have e5 : 1 / (center - start) * ((a : ℝ) - start) = 1 / (center - start) * a + -(1 / (center - start) * start) := by
        ring
      have e6 : 1 / (center - start) * (((a + m - 1 : ℕ) : ℝ) - start) =
        1 / (center - start) * (a + m - 1 : ℕ) + -(1 / (center - start) * start) := by ring
      rw [e5, e6, this]
      have e7 : 1 / (center - start) * ((a + j : ℕ) : ℝ) + -(1 / (center - start) * start) =
        (((a + j : ℕ) : ℝ) - start) / (center - start) := by ring
      rw [e7]
      unfold tent
      rw [min_eq_left, max_eq_right]
      · exact div_nonneg (by linarith [hb.2.1]) hA.le
      · rw [div_le_div_iff₀ hA hB]
        nlinarith [hb.2.1, hb.2.2]
    · rw [if_neg hfu]
      rw [hmem] at hfd hfu
      unfold tent
      rw [max_eq_left]
      rcases lt_or_ge (f : ℝ) start with h | h
      · exact le_trans (min_le_left _ _) (div_nonpos_of_nonpos_of_nonneg (by linarith) hA.le)
      · rcases le_or_gt (f : ℝ) center with h' | h'
        · exact absurd ⟨hf, h, h'⟩ hfu
        · refine le_trans (min_le_right _ _) (div_nonpos_of_nonpos_of_nonneg ?_ hB.le)
          by_contra h6
          exact hfd ⟨hf, h'.le, by linarith⟩

theorem tent_nonneg (a b c f : ℝ) : 0 ≤ tent a b c f := le_max_left _ _

theorem tent_outside (a b c f : ℝ) (h1 : a < b) (h2 : b < c) (h : f ≤ a ∨ c ≤ f) : tent a b c f = 0 := by
  unfold tent
  apply max_eq_left
  rcases h with h | h
  · exact le_trans (min_le_left _ _) (div_nonpos_of_nonpos_of_nonneg (by linarith) (by linarith))
  · exact le_trans (min_le_right _ _) (div_nonpos_of_nonpos_of_nonneg (by linarith) (by linarith))

theorem tent_up (a b c f : ℝ) (h1 : a < b) (h2 : b < c) (h3 : a ≤ f) (h4 : f ≤ b) :
    tent a b c f = (f - a) / (b - a) := by
  unfold tent
  have hA : 0 < b - a := by linarith
  have hB : 0 < c - b := by linarith
  rw [min_eq_left, max_eq_right (div_nonneg (by linarith) hA.le)]
  rw [div_le_div_iff₀ hA hB]
  nlinarith

theorem tent_down (a b c f : ℝ) (h1 : a < b) (h2 : b < c) (h3 : b ≤ f) (h4 : f ≤ c) :
    tent a b c f = (c - f) / (c - b) := by
  unfold tent
  have hA : 0 < b - a := by linarith
  have hB : 0 < c - b := by linarith
  rw [min_eq_right, max_eq_right (div_nonneg (by linarith) hB.le)]
  rw [div_le_div_iff₀ hB hA]
  nlinarith

/-- The tents on increasing centres sum to one between the first and the last. -/
theorem tent_partition (c : ℕ → ℝ) (n : ℕ) (hc : ∀ i ≤ n, c i < c (i + 1)) (f : ℝ) (h1 : c 1 ≤ f) (h2 : f ≤ c n) :
    ∑ i ∈ Finset.range n, tent (c i) (c (i + 1)) (c (i + 2)) f = 1 := by
  induction n with
  | zero => have := hc 0 (le_refl _); linarith
  | succ n ih =>
    rw [Finset.sum_range_succ]
    have hmono : ∀ i j, i ≤ j → j ≤ n + 2 → c i ≤ c j := by
      intro i j hij hj
      induction j, hij using Nat.le_induction with
      | base => exact le_refl _
      | succ j hij ihj => exact le_trans (ihj (by omega)) (hc j (by omega)).le
    rcases le_or_gt f (c n) with h | h
    · rw [ih (fun i hi => hc i (by omega)) h, tent_outside _ _ _ _ (hc n (by omega)) (hc (n + 1) (by omega)) (.inl h),
        add_zero]
    · cases n with
      | zero =>
        have : f = c 1 := le_antisymm h2 h1
        subst this
        rw [Finset.sum_range_zero, zero_add, tent_up _ _ _ _ (hc 0 (by omega)) (hc 1 (by omega)) (hc 0 (by omega)).le
          (le_refl _), div_self]
        have := hc 0 (by omega)
        linarith
      | succ n =>
        rw [Finset.sum_range_succ, Finset.sum_eq_zero, zero_add,
          tent_down _ _ _ _ (hc n (by omega)) (hc (n + 1) (by omega)) h.le h2,
          tent_up _ _ _ _ (hc (n + 1) (by omega)) (hc (n + 2) (by omega)) h.le h2, ← add_div]
        · rw [show c (n + 2) - f + (f - c (n + 1)) = c (n + 2) - c (n + 1) by ring, div_self]
          have := hc (n + 1) (by omega)
          linarith
        · intro i hi
          rw [Finset.mem_range] at hi
          exact tent_outside _ _ _ _ (hc i (by omega)) (hc (i + 1) (by omega))
            (.inr (le_trans (hmono (i + 2) (n + 1) (by omega) (by omega)) h.le))

/-! ## Centres -/

theorem linspace_mono (a b : ℝ) (m i : ℕ) (hm : 2 ≤ m) (hab : a ≤ b) :
    linspace a b m i ≤ linspace a b m (i + 1) := by
  unfold linspace
  rw [if_neg (by omega), if_neg (by omega)]
  have : 0 ≤ (b - a) / ((m : ℝ) - 1) := div_nonneg (by linarith) (by
    have : (2 : ℝ) ≤ m := by exact_mod_cast hm
    linarith)
  push_cast
  nlinarith

theorem linspace_first (a b : ℝ) (m : ℕ) : linspace a b m 0 = a := by
  unfold linspace
  split <;> simp

theorem linspace_last (a b : ℝ) (m : ℕ) : linspace a b (m + 2) (m + 1) = b := by
  unfold linspace
  rw [if_neg (by omega)]
  have : ((m + 2 : ℕ) : ℝ) - 1 ≠ 0 := by push_cast; intro h; have : (0:ℝ) ≤ m := Nat.cast_nonneg m; linarith
  push_cast at *
  field_simp
  ring

theorem hz2mel_mono {a b : ℝ} (ha : 0 ≤ a) (hab : a ≤ b) : Features.hz2mel a ≤ Features.hz2mel b :=
  Props.C61_mel_strictMono.monotoneOn ha (le_trans ha hab) hab

theorem centers_mono (nfilters fftLen : ℕ) (srate lo hi : ℝ) (hs : 0 < srate) (hlo : 0 ≤ lo) (hlh : lo ≤ hi)
    (hhi : hi ≠ 0) (i : ℕ) :
    centers nfilters fftLen srate lo hi i ≤ centers nfilters fftLen srate lo hi (i + 1) := by
  unfold centers
  dsimp only
  rw [if_neg hhi]
  have h1 := linspace_mono (Features.hz2mel lo) (Features.hz2mel hi) (nfilters + 2) i (by omega) (hz2mel_mono hlo hlh)
  have h2 := Props.C61_inverse_strictMono.1.monotone h1
  have h3 : (fftLen : ℝ) * Features.mel2hz (linspace (Features.hz2mel lo) (Features.hz2mel hi) (nfilters + 2) i) / srate ≤
      fftLen * Features.mel2hz (linspace (Features.hz2mel lo) (Features.hz2mel hi) (nfilters + 2) (i + 1)) / srate := by
    gcongr
  exact_mod_cast Int.floor_le_floor h3

theorem centers_first (nfilters fftLen : ℕ) (srate lo hi : ℝ) (hlo : 0 ≤ lo) :
    centers nfilters fftLen srate lo hi 0 = (⌊fftLen * lo / srate⌋ : ℤ) := by
  unfold centers
  dsimp only
  rw [linspace_first, Props.C61_mel_round_trip lo hlo]

theorem centers_last (nfilters fftLen : ℕ) (srate lo hi : ℝ) (hhi : 0 < hi) :
    centers nfilters fftLen srate lo hi (nfilters + 1) = (⌊fftLen * hi / srate⌋ : ℤ) := by
  unfold centers
  dsimp only
  rw [if_neg hhi.ne', linspace_last, Props.C61_mel_round_trip hi hhi.le]

theorem centers_int (nfilters fftLen : ℕ) (srate lo hi : ℝ) (hs : 0 < srate) (hlo : 0 ≤ lo) (hlh : lo ≤ hi)
    (hhi : hi ≠ 0) (i : ℕ) : ∃ m : ℕ, centers nfilters fftLen srate lo hi i = m := by
  have h0 : 0 ≤ centers nfilters fftLen srate lo hi i := by
    induction i with
    | zero =>
      rw [centers_first _ _ _ _ _ hlo]
      have : (0 : ℤ) ≤ ⌊(fftLen : ℝ) * lo / srate⌋ := Int.floor_nonneg.2 (by positivity)
      exact_mod_cast this
    | succ i ih => exact le_trans ih (centers_mono _ _ _ _ _ hs hlo hlh hhi i)
  unfold centers at h0 ⊢
  dsimp only at h0 ⊢
  have h1 : (0 : ℤ) ≤ ⌊(fftLen : ℝ) * Features.mel2hz (linspace (Features.hz2mel lo) (Features.hz2mel
    (if hi = 0 then srate / 2 else hi)) (nfilters + 2) i) / srate⌋ := by exact_mod_cast h0
  obtain ⟨m, hm⟩ := Int.eq_ofNat_of_zero_le h1
  refine ⟨m, ?_⟩
  rw [hm]
  simp

/-! ## Cosine transform -/

/-- Sum of the samples of a cosine over half periods. -/
theorem sum_cos (N j : ℕ) (hN : 0 < N) (h0 : 0 < j) (h1 : j < 2 * N) :
    ∑ n ∈ Finset.range N, cos (j * π / N * (n + 0.5)) = 0 := by
  have hN' : (N : ℝ) ≠ 0 := by positivity
  set a : ℝ := j * π / N with ha
  have hs : sin (a / 2) ≠ 0 := by
    apply (sin_pos_of_pos_of_lt_pi _ _).ne'
    · rw [ha]; positivity
    · rw [ha, div_div, div_lt_iff₀ (by positivity)]
      have : (j : ℝ) < 2 * N := by exact_mod_cast h1
      nlinarith [pi_pos]
  have tele : ∀ M : ℕ, 2 * sin (a / 2) * ∑ n ∈ Finset.range M, cos (a * (n + 0.5)) = sin (a * M) := by
    intro M
    induction M with
    | zero => simp
    | succ M ih =>
      rw [Finset.sum_range_succ, mul_add, ih]
      have e1 : a * ((M + 1 : ℕ) : ℝ) = a * (M + 0.5) + a / 2 := by push_cast; ring
      have e2 : a * (M : ℝ) = a * (M + 0.5) - a / 2 := by ring
      rw [e1, e2, sin_add, sin_sub]
      ring
  have h := tele N
  have hz : a * N = j * π := by rw [ha]; field_simp
  rw [hz, sin_nat_mul_pi] at h
  have := mul_eq_zero.1 h
  rcases this with h' | h'
  · exact absurd h' (by simpa using hs)
  · exact h'

theorem dct_sum_zero (N m : ℕ) (hN : 0 < N) (hm : m + 1 < 2 * N) :
    ∑ n ∈ Finset.range N, dctBasis N n m = 0 := by
  have := sum_cos N (m + 1) hN (by omega) hm
  unfold dctBasis
  rw [← this]
  push_cast
  rfl

theorem dct_orthogonal (N m m' : ℕ) (hN : 0 < N) (hm : m < N) (hm' : m' < N) (hne : m ≠ m') :
    ∑ n ∈ Finset.range N, dctBasis N n m * dctBasis N n m' = 0 := by
  wlog hlt : m' < m generalizing m m'
  · rw [← this m' m hm' hm hne.symm (by omega)]
    exact Finset.sum_congr rfl fun n _ => mul_comm _ _
  have e : ∀ n : ℕ, dctBasis N n m * dctBasis N n m' =
      1 / 2 * (cos (((m - m' : ℕ) : ℝ) * π / N * (n + 0.5)) + cos (((m + m' + 2 : ℕ) : ℝ) * π / N * (n + 0.5))) := by
    intro n
    unfold dctBasis
    have e1 : ((m - m' : ℕ) : ℝ) * π / N * (n + 0.5) = ((m : ℝ) + 1) * π / N * (n + 0.5) - (m' + 1) * π / N * (n + 0.5) := by
      rw [Nat.cast_sub hlt.le]; ring
    have e2 : ((m + m' + 2 : ℕ) : ℝ) * π / N * (n + 0.5) =
        ((m : ℝ) + 1) * π / N * (n + 0.5) + (m' + 1) * π / N * (n + 0.5) := by
      push_cast; ring
    rw [e1, e2, cos_sub, cos_add]
    ring
  rw [Finset.sum_congr rfl fun n _ => e n, ← Finset.mul_sum, Finset.sum_add_distrib,
    sum_cos N (m - m') hN (by omega) (by omega), sum_cos N (m + m' + 2) hN (by omega) (by omega)]
  ring

theorem dct_square (N m : ℕ) (hN : 0 < N) (hm : m + 1 < N) :
    ∑ n ∈ Finset.range N, dctBasis N n m * dctBasis N n m = N / 2 := by
  have e : ∀ n : ℕ, dctBasis N n m * dctBasis N n m =
      1 / 2 * (1 + cos (((2 * m + 2 : ℕ) : ℝ) * π / N * (n + 0.5))) := by
    intro n
    unfold dctBasis
    have e2 : ((2 * m + 2 : ℕ) : ℝ) * π / N * (n + 0.5) = 2 * (((m : ℝ) + 1) * π / N * (n + 0.5)) := by
      push_cast; ring
    rw [e2, cos_two_mul]
    ring
  rw [Finset.sum_congr rfl fun n _ => e n, ← Finset.mul_sum, Finset.sum_add_distrib,
    sum_cos N (2 * m + 2) hN (by omega) (by omega)]
  simp
  ring

theorem dct_last (N n : ℕ) (hN : 0 < N) : dctBasis N n (N - 1) = 0 := by
  unfold dctBasis
  have hN' : (N : ℝ) ≠ 0 := by positivity
  have e : (((N - 1 : ℕ) : ℝ) + 1) * π / N * (n + 0.5) = π / 2 + n * π := by
    rw [Nat.cast_sub (by omega)]
    push_cast
    field_simp
    ring
  rw [e, cos_add]
  simp

end Verif.Spectrum
