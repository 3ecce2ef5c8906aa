import Verif.Model.Recipes
import Verif.Lemmas.Pipeline
import Verif.Lemmas.HInit
import Mathlib.Tactic.Linarith
import Mathlib.Tactic.Ring

/-!
# C140: frame labels from the TIMIT label files
-/

namespace Verif.Props

open Verif Pipeline Recipes

/-! ## C140 -/

/-- The lines give the segments `segs` (first sample, last sample, label); empty lines are allowed. -/
inductive Reads (toInt : String → Option ℤ) : List (List String) → List (ℤ × ℤ × String) → Prop
  | nil : Reads toInt [] []
  | blank {ls gs} : Reads toInt ls gs → Reads toInt ([] :: ls) gs
  | seg {ls gs a b l s e} : toInt a = some s → toInt b = some e → Reads toInt ls gs →
      Reads toInt ([a, b, l] :: ls) ((s, e, l) :: gs)

/-- The segments follow each other from sample `a` to sample `b`. -/
def Contig : ℤ → List (ℤ × ℤ × String) → ℤ → Prop
  | a, [], b => a = b
  | a, (s, e, _) :: r, b => s = a ∧ s ≤ e ∧ Contig e r b

theorem contig_le : ∀ (gs : List (ℤ × ℤ × String)) (a b : ℤ), Contig a gs b → a ≤ b ∧ ∀ g ∈ gs, a ≤ g.1 ∧ g.1 ≤ g.2.1
  | [], a, b, h => ⟨le_of_eq h, by simp⟩
  | (s, e, l) :: r, a, b, ⟨h1, h2, h3⟩ => by
    obtain ⟨h4, h5⟩ := contig_le r e b h3
    refine ⟨by omega, ?_⟩
    intro g hg
    rcases List.mem_cons.1 hg with rfl | hg
    · exact ⟨by simp [h1], h2⟩
    · exact ⟨by have := h5 g hg; omega, (h5 g hg).2⟩

theorem toFrame_floor (frate srate : ℕ) (x : ℤ) (hx : 0 ≤ x) : toFrame frate srate x = (x * frate) / srate := by
  unfold toFrame
  exact Int.tdiv_eq_ediv_of_nonneg (by positivity)

theorem readLabels_spec (toInt : String → Option ℤ) (frate srate : ℕ) (hs : 0 < srate) (ls : List (List String))
    (gs : List (ℤ × ℤ × String)) (hr : Reads toInt ls gs) : ∀ (a b : ℤ), 0 ≤ a → Contig a gs b →
      ∃ out, readLabels toInt frate srate ls = .ok out ∧
        (out.length : ℤ) = b * frate / srate - a * frate / srate ∧
        ∀ s e l, (s, e, l) ∈ gs → ∀ (j : ℕ), s * frate < (j + 1) * srate → (j + 1) * srate ≤ e * frate →
          a * frate / srate ≤ j ∧ out[((j : ℤ) - a * frate / srate).toNat]? = some l := by
  have hs' : (0 : ℤ) < srate := by exact_mod_cast hs
  induction hr with
  | nil =>
    intro a b _ h
    refine ⟨[], rfl, ?_, by simp⟩
    have : a = b := h
    simp [this]
  | blank _ ih =>
    intro a b h0 h
    obtain ⟨out, h1, h2⟩ := ih a b h0 h
    exact ⟨out, by simpa [readLabels] using h1, h2⟩
  | @seg ls gs ta tb l s e hs1 he1 hr ih =>
    intro a b h0 h
    obtain ⟨rfl, hse, hc⟩ := h
    obtain ⟨out, h1, h2, h3⟩ := ih e b (by omega) hc
    have hmono : s * frate / srate ≤ e * frate / srate :=
      Int.ediv_le_ediv hs' (mul_le_mul_of_nonneg_right hse (by positivity))
    have hlen : ((e * frate / srate - s * frate / srate).toNat : ℤ) = e * frate / srate - s * frate / srate :=
      Int.toNat_of_nonneg (by omega)
    refine ⟨List.replicate (toFrame frate srate e - toFrame frate srate s).toNat l ++ out, ?_, ?_, ?_⟩
    · simp only [readLabels, hs1, he1, h1]
    · rw [toFrame_floor _ _ _ h0, toFrame_floor _ _ _ (by omega)]
      rw [List.length_append, List.length_replicate]
      push_cast
      rw [h2]
      omega
    · rw [toFrame_floor _ _ _ h0, toFrame_floor _ _ _ (by omega)]
      intro s' e' l' hg j hj1 hj2
      have hs'e : s ≤ s' := by
        rcases List.mem_cons.1 hg with h | h
        · rw [Prod.mk.injEq] at h; omega
        · have := ((contig_le _ _ _ hc).2 _ h).1
          simp only at this
          omega
      have hlow : s * frate / srate ≤ j := by
        have : s * frate / srate < j + 1 := by
          rw [Int.ediv_lt_iff_lt_mul hs']
          have : s * frate ≤ s' * frate := mul_le_mul_of_nonneg_right hs'e (by positivity)
          linarith
        omega
      refine ⟨hlow, ?_⟩
      rcases List.mem_cons.1 hg with h | h
      · rw [Prod.mk.injEq, Prod.mk.injEq] at h
        obtain ⟨rfl, rfl, rfl⟩ := h
        have hup : (j : ℤ) + 1 ≤ e' * frate / srate := by
          rw [Int.le_ediv_iff_mul_le hs']; exact hj2
        rw [List.getElem?_append_left (by rw [List.length_replicate]; omega)]
        rw [List.getElem?_replicate_of_lt (by omega)]
      · obtain ⟨h4, h5⟩ := h3 s' e' l' h j hj1 hj2
        rw [List.getElem?_append_right (by rw [List.length_replicate]; omega), List.length_replicate]
        rw [← h5]
        congr 1
        omega

/-- Segments that follow each other from the first sample give one label per frame, as many frames as fit in the samples,
and frame `j` has the label of the segment in which it ends. -/
theorem C140_frames (toInt : String → Option ℤ) (frate srate : ℕ) (hs : 0 < srate) (ls : List (List String))
    (gs : List (ℤ × ℤ × String)) (hr : Reads toInt ls gs) (b : ℤ) (hc : Contig 0 gs b) :
    ∃ out, readTimitLabels toInt frate srate ls = .ok out ∧ (out.length : ℤ) = b * frate / srate ∧
      ∀ s e l, (s, e, l) ∈ gs → ∀ (j : ℕ), s * frate < (j + 1) * srate → (j + 1) * srate ≤ e * frate →
        out[j]? = some l := by
  obtain ⟨out, h1, h2, h3⟩ := readLabels_spec toInt frate srate hs ls gs hr 0 b le_rfl hc
  refine ⟨out, ?_, by simpa using h2, ?_⟩
  · unfold readTimitLabels
    rw [if_neg (by omega), h1]
  · intro s e l hg j hj1 hj2
    have := (h3 s e l hg j hj1 hj2).2
    simpa using this

/-- Field reader of the examples. -/
def exInt (s : String) : Option ℤ :=
  if s = "0" then some 0 else if s = "300" then some 300 else if s = "700" then some 700
  else if s = "1600" then some 1600 else if s = "3200" then some 3200 else none

example : Reads exInt [["0", "300", "a"], [], ["300", "700", "b"]] [(0, 300, "a"), (300, 700, "b")] :=
  .seg (by decide +kernel) (by decide +kernel) (.blank (.seg (by decide +kernel) (by decide +kernel) .nil))

example : Contig 0 [(0, 300, "a"), (300, 700, "b")] 700 := ⟨rfl, by decide, rfl, by decide, rfl⟩

example : readTimitLabels exInt 100 16000 [["0", "300", "a"], [], ["300", "700", "b"]] =
    .ok ["a", "b", "b", "b"] := by decide +kernel

/-- Every frame of the file ends in one of the segments, so the labels above are all of them. -/
theorem C140_covered (frate srate : ℕ) (hs : 0 < srate) : ∀ (gs : List (ℤ × ℤ × String)) (a b : ℤ), Contig a gs b →
    ∀ (j : ℕ), a * frate < (j + 1) * srate → (j : ℤ) < b * frate / srate →
      ∃ s e l, (s, e, l) ∈ gs ∧ s * frate < (j + 1) * srate ∧ (j + 1) * srate ≤ e * frate
  | [], a, b, h, j, h1, h2 => by
    have hs' : (0 : ℤ) < srate := by exact_mod_cast hs
    have h' : a = b := h
    subst h'
    have h3 : (j : ℤ) + 1 ≤ a * frate / srate := by omega
    rw [Int.le_ediv_iff_mul_le hs'] at h3
    omega
  | (s, e, l) :: r, a, b, ⟨h0, h1, h2⟩, j, hj, hb => by
    by_cases he : ((j : ℤ) + 1) * srate ≤ e * frate
    · exact ⟨s, e, l, by simp, by rw [h0]; exact hj, he⟩
    · obtain ⟨s', e', l', h3, h4⟩ := C140_covered frate srate hs r e b h2 j (by omega) hb
      exact ⟨s', e', l', by simp [h3], h4⟩

example : ∃ s e l, (s, e, l) ∈ [(0, 300, "a"), ((300 : ℤ), (700 : ℤ), "b")] ∧ s * (100 : ℕ) < ((1 : ℕ) + 1) * (16000 : ℕ) ∧
    (((1 : ℕ) : ℤ) + 1) * (16000 : ℕ) ≤ e * (100 : ℕ) :=
  C140_covered 100 16000 (by decide) [(0, 300, "a"), (300, 700, "b")] 0 700 ⟨rfl, by decide, rfl, by decide, rfl⟩ 1 (by decide) (by decide)

/-- When the first segment does not begin at sample 0, the labels come too early, by the frames before it. -/
theorem C140_offset (toInt : String → Option ℤ) (frate srate : ℕ) (hs : 0 < srate) (ls : List (List String))
    (gs : List (ℤ × ℤ × String)) (hr : Reads toInt ls gs) (a b : ℤ) (ha : 0 ≤ a) (hc : Contig a gs b) :
    ∃ out, readTimitLabels toInt frate srate ls = .ok out ∧
      (out.length : ℤ) = b * frate / srate - a * frate / srate ∧
      ∀ s e l, (s, e, l) ∈ gs → ∀ (j : ℕ), s * frate < (j + 1) * srate → (j + 1) * srate ≤ e * frate →
        out[((j : ℤ) - a * frate / srate).toNat]? = some l := by
  obtain ⟨out, h1, h2, h3⟩ := readLabels_spec toInt frate srate hs ls gs hr a b ha hc
  refine ⟨out, ?_, h2, fun s e l hg j hj1 hj2 => (h3 s e l hg j hj1 hj2).2⟩
  unfold readTimitLabels
  rw [if_neg (by omega), h1]

/-- The violation: a frame inside a segment does not get its label, when the file begins late or has a gap. -/
theorem C140_frames_fails :
    ¬ ∀ (ls : List (List String)) (gs : List (ℤ × ℤ × String)), Reads exInt ls gs →
      ∀ out, readTimitLabels exInt 100 16000 ls = .ok out → ∀ s e l, (s, e, l) ∈ gs → ∀ (j : ℕ),
        s * 100 < (j + 1) * 16000 → ((j : ℤ) + 1) * 16000 ≤ e * 100 → out[j]? = some l := by
  intro h
  have := h [["1600", "3200", "a"]] [(1600, 3200, "a")] (.seg (by decide +kernel) (by decide +kernel) .nil)
    (List.replicate 10 "a") (by decide +kernel) 1600 3200 "a" (by simp) 15 (by norm_num) (by norm_num)
  simp at this

/-- A segment of the frames 10 to 19 is written to the frames 0 to 9; a gap between two segments moves the second one. -/
example : readTimitLabels exInt 100 16000 [["1600", "3200", "a"]] = .ok (List.replicate 10 "a") := by decide +kernel

example : readTimitLabels exInt 100 16000 [["0", "300", "a"], ["1600", "3200", "b"]] =
    .ok ("a" :: List.replicate 10 "b") := by decide +kernel

/-- Files that are refused: after lines that can be read, a line with one, two or more than three fields, or with a field
that is no number; a sampling rate of zero. -/
theorem C140_errors (toInt : String → Option ℤ) (frate srate : ℕ) (ls ls' : List (List String))
    (gs : List (ℤ × ℤ × String)) (hr : Reads toInt ls gs) :
    readTimitLabels toInt frate 0 ls' = .error .zeroDivision ∧
    (∀ l, l ≠ [] → l.length ≠ 3 → 0 < srate →
      readTimitLabels toInt frate srate (ls ++ l :: ls') = .error .valueError) ∧
    (∀ a b l, toInt a = none ∨ toInt b = none → 0 < srate →
      readTimitLabels toInt frate srate (ls ++ [a, b, l] :: ls') = .error .valueError) := by
  have key : ∀ rest, readLabels toInt frate srate rest = .error .valueError →
      readLabels toInt frate srate (ls ++ rest) = .error .valueError := by
    intro rest hrest
    induction hr with
    | nil => exact hrest
    | blank _ ih => simpa [readLabels] using ih
    | seg h1 h2 _ ih =>
      simp only [List.cons_append, readLabels, h1, h2, ih]
  refine ⟨by simp [readTimitLabels], ?_, ?_⟩
  · intro l hl hl3 hs
    unfold readTimitLabels
    rw [if_neg (by omega)]
    apply key
    match l, hl, hl3 with
    | [], h, _ => exact absurd rfl h
    | [_], _, _ => rfl
    | [_, _], _, _ => rfl
    | [_, _, _], _, h => exact absurd rfl h
    | _ :: _ :: _ :: _ :: _, _, _ => rfl
  · intro a b l h hs
    unfold readTimitLabels
    rw [if_neg (by omega)]
    apply key
    rcases h with h | h
    · simp only [readLabels, h]
    · simp only [readLabels, h]
      cases toInt a <;> rfl

example : readTimitLabels exInt 100 16000 [["0", "300", "a"], ["300", "b"]] = .error .valueError := by decide +kernel

end Verif.Props
