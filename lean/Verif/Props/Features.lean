import Verif.Model.Features
import Verif.Lemmas.ExceptList
import Mathlib.Algebra.BigOperators.Field
import Mathlib.Algebra.BigOperators.Ring.List
import Mathlib.Algebra.Order.BigOperators.Group.List
import Mathlib.Algebra.Order.Ring.Rat
import Mathlib.Data.List.GetD
import Mathlib.Tactic.FieldSimp
import Mathlib.Tactic.FinCases
import Mathlib.Tactic.Linarith
import Mathlib.Tactic.NormNum
import Mathlib.Tactic.Ring

/-!
# C57 – C61: features and data-set statistics
-/

namespace Verif.Props

open Verif.Features

/-! ## C61 -/

theorem C61_mel_round_trip (f : ℝ) (hf : 0 ≤ f) : mel2hz (hz2mel f) = f := by
  unfold mel2hz hz2mel
  rw [mul_div_cancel_left₀ _ (by norm_num : (1127 : ℝ) ≠ 0), Real.exp_log (by positivity)]
  ring

theorem C61_mel_round_trip' (m : ℝ) : hz2mel (mel2hz m) = m := by
  unfold mel2hz hz2mel
  rw [mul_div_cancel_left₀ _ (by norm_num : (700 : ℝ) ≠ 0), add_sub_cancel, Real.log_exp]
  ring

/-- The frequency zero is the mel value zero, 700 Hz is `1127 log 2`. -/
example : hz2mel 0 = 0 ∧ hz2mel 700 = 1127 * Real.log 2 := by
  unfold hz2mel; norm_num

theorem C61_bark_round_trip (f : ℝ) (hf : 0 ≤ f) : bark2hz (hz2bark f) = f := by
  have h1 : (1960 : ℝ) + f ≠ 0 := by positivity
  unfold bark2hz hz2bark
  have h2 : (29.81 : ℝ) - (29.81 * f / (1960 + f) - 0.53) - 0.53 = 29.81 * 1960 / (1960 + f) := by
    field_simp; ring
  rw [h2]
  field_simp
  ring

/-- On the range of `hz2bark` (and below the pole). -/
theorem C61_bark_round_trip' (b : ℝ) (hb : b < 29.28) : hz2bark (bark2hz b) = b := by
  have h1 : (29.81 : ℝ) - b - 0.53 ≠ 0 := by
    intro h; norm_num at hb; linarith
  unfold bark2hz hz2bark
  have h2 : (1960 : ℝ) + 1960 * (b + 0.53) / (29.81 - b - 0.53) = 1960 * 29.81 / (29.81 - b - 0.53) := by
    field_simp; ring
  rw [h2]
  field_simp
  ring

/-- Every non-negative frequency is mapped to a Bark value where the inverse holds. -/
theorem C61_bark_range (f : ℝ) (hf : 0 ≤ f) : -0.53 ≤ hz2bark f ∧ hz2bark f < 29.28 := by
  have h1 : (0 : ℝ) < 1960 + f := by positivity
  unfold hz2bark
  constructor
  · have : (0 : ℝ) ≤ 29.81 * f / (1960 + f) := by positivity
    linarith
  · have : (29.81 : ℝ) * f / (1960 + f) < 29.81 := by
      rw [div_lt_iff₀ h1]; nlinarith
    norm_num at this ⊢
    linarith

theorem C61_mel_strictMono : StrictMonoOn hz2mel (Set.Ici 0) := by
  intro a ha b hb hab
  unfold hz2mel
  have ha' : (0 : ℝ) ≤ a := ha
  have : Real.log (1 + a / 700) < Real.log (1 + b / 700) := by
    apply Real.log_lt_log (by positivity)
    linarith [div_lt_div_of_pos_right hab (by norm_num : (0 : ℝ) < 700)]
  linarith

theorem C61_bark_strictMono : StrictMonoOn hz2bark (Set.Ici 0) := by
  intro a ha b hb hab
  have ha' : (0 : ℝ) ≤ a := ha
  have hb' : (0 : ℝ) ≤ b := hb
  unfold hz2bark
  have : (29.81 : ℝ) * a / (1960 + a) < 29.81 * b / (1960 + b) := by
    rw [div_lt_div_iff₀ (by positivity) (by positivity)]
    nlinarith
  linarith

theorem C61_inverse_strictMono : StrictMono mel2hz ∧ StrictMonoOn bark2hz (Set.Iio 29.28) := by
  constructor
  · intro a b hab
    unfold mel2hz
    have : Real.exp (a / 1127) < Real.exp (b / 1127) :=
      Real.exp_lt_exp.mpr (div_lt_div_of_pos_right hab (by norm_num))
    linarith
  · intro a ha b hb hab
    have ha' : a < 29.28 := ha
    have hb' : b < 29.28 := hb
    norm_num at ha' hb'
    unfold bark2hz
    rw [div_lt_div_iff₀ (by linarith) (by linarith)]
    nlinarith

/-! ## C60 -/

/-- When the signal has at least one frame: the call succeeds, all reads are inside of the signal, no
further frame would fit, and the FFT length is the smallest power of two larger than the frame. -/
theorem C60_framing (len flen frate : ℕ) (hflen : 0 < flen) (hfrate : 0 < frate) (h : flen ≤ len) :
    ∃ fr, framing len flen frate = .ok fr ∧ 1 ≤ fr.nframes ∧
      (∀ t < fr.nframes, ∀ k < flen, fr.read t k < len) ∧
      (∃ k < flen, len ≤ fr.read fr.nframes k) ∧
      (∃ e, fr.fftLen = 2 ^ e) ∧ flen < fr.fftLen ∧ ∀ e, flen < 2 ^ e → fr.fftLen ≤ 2 ^ e := by
  have hdiv : ((len : ℤ) - flen).fdiv frate = (((len - flen) / frate : ℕ) : ℤ) := by
    rw [Int.fdiv_eq_ediv_of_nonneg _ (by omega)]
    push_cast [h]
    rfl
  refine ⟨⟨(len - flen) / frate + 1, 2 ^ (Nat.log 2 flen + 1), fun t k => t * frate + k⟩, ?_, ?_⟩
  · unfold framing
    rw [if_neg (by omega)]
    dsimp only
    rw [hdiv, if_neg (not_lt.mpr (by positivity)), if_neg (by omega)]
    congr 2
  · refine ⟨by simp, fun t ht k hk => ?_, ⟨flen - 1, by omega, ?_⟩, ⟨_, rfl⟩, ?_, ?_⟩
    · dsimp only at ht ⊢
      have h1 : t ≤ (len - flen) / frate := by omega
      have h2 := Nat.mul_le_of_le_div frate t (len - flen) h1
      omega
    · dsimp only
      have h2 := Nat.lt_mul_div_succ (len - flen) hfrate
      rw [Nat.mul_comm] at h2
      omega
    · exact Nat.lt_pow_succ_log_self (by norm_num) flen
    · intro e he
      dsimp only
      have : Nat.log 2 flen < e := Nat.log_lt_of_lt_pow (by omega) he
      exact Nat.pow_le_pow_right (by norm_num) this

example : (framing 16000 400 160).toOption.map (fun fr => (fr.nframes, fr.fftLen)) = some (98, 512) := by
  decide +kernel

/-- All branches for the other arguments. A signal shorter than a frame by at most one frame period gives
no frame; a shorter one is an error. -/
theorem C60_other_branches (len flen frate : ℕ) :
    (frate = 0 → framing len flen frate = .error .zeroDivision) ∧
    (0 < frate → len < flen → flen ≤ len + frate →
      ∃ fr, framing len flen frate = .ok fr ∧ fr.nframes = 0) ∧
    (0 < frate → len + frate < flen → framing len flen frate = .error .valueError) ∧
    (0 < frate → flen = 0 → framing len flen frate = .error .indexError) := by
  refine ⟨fun h => by rw [framing, if_pos h], fun h1 h2 h3 => ?_, fun h1 h2 => ?_, fun h1 h2 => ?_⟩
  · have hdiv : ((len : ℤ) - flen).fdiv frate = -1 := by
      rw [Int.fdiv_eq_ediv_of_nonneg _ (by omega)]
      rw [Int.ediv_eq_iff_of_pos (by omega)]
      omega
    refine ⟨⟨0, 2 ^ (Nat.log 2 flen + 1), fun t k => t * frate + k⟩, ?_, rfl⟩
    unfold framing
    rw [if_neg (by omega)]
    dsimp only
    rw [hdiv, if_neg (by norm_num), if_neg (by omega)]
    congr 2
  · have hdiv : ((len : ℤ) - flen).fdiv frate < -1 := by
      rw [Int.fdiv_eq_ediv_of_nonneg _ (by omega)]
      rw [Int.ediv_lt_iff_lt_mul (by omega)]
      omega
    unfold framing
    rw [if_neg (by omega)]
    dsimp only
    rw [if_pos (by omega)]
  · subst h2
    have hdiv : 0 ≤ ((len : ℤ) - (0 : ℕ)).fdiv frate := by
      rw [Int.fdiv_eq_ediv_of_nonneg _ (by omega)]
      exact Int.ediv_nonneg (by omega) (by omega)
    unfold framing
    rw [if_neg (by omega)]
    dsimp only
    rw [if_neg (by omega), if_pos rfl]

example : (framing 100 400 160).toOption.map (fun fr => fr.nframes) = none := by decide +kernel
example : (framing 300 400 160).toOption.map (fun fr => fr.nframes) = some 0 := by decide +kernel

/-! ## C57 -/

/-- Mean and population variance of a list of numbers. -/
noncomputable def meanOf (l : List ℝ) : ℝ := l.sum / l.length
noncomputable def varOf (l : List ℝ) : ℝ := (l.map (fun x => (x - meanOf l) ^ 2)).sum / l.length

theorem foldl_add_eq {d : ℕ} : ∀ (utts : List (Utt d)) (a : DataAcc d),
    (utts.foldl DataAcc.add a).sum = a.sum + utts.flatten.sum ∧
    (utts.foldl DataAcc.add a).sqSum = a.sqSum + (utts.flatten.map (fun x => x ^ 2)).sum ∧
    (utts.foldl DataAcc.add a).count = a.count + utts.flatten.length := by
  intro utts
  induction utts with
  | nil => intro a; simp
  | cons u utts ih =>
    intro a
    obtain ⟨h1, h2, h3⟩ := ih (a.add u)
    rw [List.foldl_cons, h1, h2, h3]
    refine ⟨?_, ?_, ?_⟩
    · simp [DataAcc.add, add_assoc]
    · simp [DataAcc.add, add_assoc]
    · simp [DataAcc.add, add_assoc]

theorem sum_apply_list {d : ℕ} (l : List (Fin d → ℝ)) (i : Fin d) :
    l.sum i = (l.map (fun x => x i)).sum := by
  induction l with
  | nil => rfl
  | cons x l ih => rw [List.sum_cons, List.map_cons, List.sum_cons, Pi.add_apply, ih]

theorem sum_sq_dev (l : List ℝ) (m : ℝ) : (l.map (fun x => (x - m) ^ 2)).sum
    = (l.map (fun x => x ^ 2)).sum - 2 * m * l.sum + l.length * m ^ 2 := by
  induction l with
  | nil => simp
  | cons x l ih =>
    simp only [List.map_cons, List.sum_cons, List.length_cons, ih]
    push_cast
    ring

/-- The statistics are the mean and variance over all frames of all utterances. -/
theorem C57_statistics {d : ℕ} (utts : List (Utt d)) (h : utts.flatten ≠ []) :
    datasetStats utts = .ok
      (fun i => meanOf (utts.flatten.map (fun x => x i)),
       fun i => varOf (utts.flatten.map (fun x => x i)), utts.flatten.length) := by
  have hne : utts ≠ [] := by rintro rfl; exact h rfl
  obtain ⟨h1, h2, h3⟩ := foldl_add_eq utts ⟨0, 0, 0⟩
  have hlen : utts.flatten.length ≠ 0 := by
    intro h0; exact h (List.length_eq_zero_iff.mp h0)
  have hlen' : (utts.flatten.length : ℝ) ≠ 0 := Nat.cast_ne_zero.mpr hlen
  unfold datasetStats
  rw [if_neg hne]
  dsimp only at h1 h2 h3 ⊢
  rw [zero_add] at h1 h2 h3
  rw [h3, if_neg hlen, h1, h2]
  congr 2
  · funext i
    rw [meanOf, sum_apply_list, List.length_map]
  · congr 1
    funext i
    rw [varOf, sum_sq_dev, meanOf, List.length_map, sum_apply_list, sum_apply_list, List.map_map,
      List.map_map]
    have he : ((fun x : Fin d → ℝ => x i) ∘ fun x => x ^ 2) = ((fun x : ℝ => x ^ 2) ∘ fun x => x i) := by
      funext x; rfl
    rw [he]
    field_simp
    ring

/-- The result only depends on the collection of frames, not on their order nor on the segmentation in
utterances. -/
theorem C57_order_irrelevant {d : ℕ} (utts utts' : List (Utt d)) (h : utts.flatten ≠ [])
    (hp : utts.flatten.Perm utts'.flatten) : datasetStats utts = datasetStats utts' := by
  have h' : utts'.flatten ≠ [] := by
    intro h0; rw [h0] at hp; exact h hp.eq_nil
  rw [C57_statistics utts h, C57_statistics utts' h']
  have hm : ∀ i, meanOf (utts.flatten.map (fun x => x i)) = meanOf (utts'.flatten.map (fun x => x i)) := by
    intro i
    unfold meanOf
    rw [(hp.map _).sum_eq, (hp.map _).length_eq]
  congr 2
  · funext i; exact hm i
  · congr 1
    · funext i
      unfold varOf
      rw [hm i, ((hp.map _).map _).sum_eq, (hp.map _).length_eq]
    · exact hp.length_eq

theorem C57_variance_nonneg {d : ℕ} (utts : List (Utt d)) (mean var : Fin d → ℝ) (n : ℕ)
    (h : datasetStats utts = .ok (mean, var, n)) : ∀ i, 0 ≤ var i := by
  by_cases hne : utts.flatten = []
  · obtain ⟨_, _, h3⟩ := foldl_add_eq utts ⟨0, 0, 0⟩
    rw [hne] at h3
    unfold datasetStats at h
    split_ifs at h with h0
    dsimp only at h
    rw [if_pos (by simpa using h3)] at h
    cases h
  · rw [C57_statistics utts hne] at h
    have := (Prod.mk.inj (Prod.mk.inj (Except.ok.inj h)).2).1
    intro i
    rw [← this]
    apply div_nonneg _ (Nat.cast_nonneg _)
    apply List.sum_nonneg
    intro y hy
    obtain ⟨x, _, rfl⟩ := List.mem_map.mp hy
    positivity

/-- Error branches. -/
theorem C57_errors {d : ℕ} (utts : List (Utt d)) (h : utts.flatten = []) :
    datasetStats utts = .error .indexError ∨ datasetStats utts = .error .valueError := by
  obtain ⟨_, _, h3⟩ := foldl_add_eq utts ⟨0, 0, 0⟩
  rw [h] at h3
  unfold datasetStats
  split_ifs with h0
  · exact Or.inl rfl
  · right
    dsimp only
    rw [if_pos (by simpa using h3)]

/-- Two utterances with frames 1, 3 and 5: mean 3, variance 8/3. -/
example : datasetStats ([[![1], ![3]], [![5]]] : List (Utt 1))
    = .ok (fun _ => 3, fun _ => 8 / 3, 3) := by
  rw [C57_statistics _ (by simp)]
  congr 2
  · funext i; fin_cases i; simp [meanOf]; norm_num
  · congr 1
    funext i; fin_cases i; simp [varOf, meanOf]; norm_num

end Verif.Props
