import Verif.Model.GammaModel
import Verif.Props.DistsValid
import Mathlib.Data.List.GetD

/-!
# Lemmas for the Gamma model
-/

namespace Verif.GammaModel

open Verif Dists

theorem vdiv_ok (a b : List ℝ) (h : a.length = b.length) (h0 : (0 : ℝ) ∉ b) :
    vdiv a b = .ok (List.zipWith (· / ·) a b) := by
  simp [vdiv, h, h0]

theorem getD_quot (a b : List ℝ) (h : a.length = b.length) (i : ℕ) :
    (List.zipWith (· / ·) a b).getD i 0 = a.getD i 0 / b.getD i 0 := by
  rcases Nat.lt_or_ge i a.length with hi | hi
  · have hi' : i < b.length := by omega
    simp [List.getD_eq_getElem?_getD, hi, hi']
  · have hi' : b.length ≤ i := by omega
    simp [List.getD_eq_getElem?_getD, hi]

theorem quot_pos (a b : List ℝ) (ha : ∀ x ∈ a, 0 < x) (hb : ∀ x ∈ b, 0 < x) :
    ∀ x ∈ List.zipWith (· / ·) a b, (0 : ℝ) < x := by
  intro x hx
  obtain ⟨i, hi, rfl⟩ := List.getElem_of_mem hx
  rw [List.getElem_zipWith]
  exact div_pos (ha _ (List.getElem_mem _)) (hb _ (List.getElem_mem _))

theorem not_zero_mem {a : List ℝ} (ha : ∀ x ∈ a, 0 < x) : (0 : ℝ) ∉ a := fun h => lt_irrefl _ (ha 0 h)

theorem gamModelStats_eq (shape x logx : List ℝ) (hs : x.length = shape.length) (hl : logx.length = x.length) :
    gamModelStats shape x logx = x ++ shape := by
  have hd : (x.map (- ·) ++ logx ++ [(1:ℝ)]).length / 2 = (x.map (- ·)).length := by
    simp [hl]; omega
  unfold gamModelStats
  simp only [hd]
  rw [List.append_assoc, List.take_left]
  congr 1
  · simp [Function.comp_def]
  · apply List.ext_getElem
    · simp [hs]
    · intro i h1 h2
      simp

theorem length_gamExpStats (p : GammaP ℝ) (h : p.shape.length = p.rate.length) :
    (gamExpStats p).length = 2 * p.shape.length := by
  simp [gamExpStats, h]; omega

theorem wsum_append (D : ℕ) (s : List ℝ) (hs : s.length = D) (data : List (List ℝ)) (hd : ∀ x ∈ data, x.length = D) :
    wsum (2 * D) (data.map fun x => (1, x ++ s)) =
      wsum D (data.map fun x => (1, x)) ++ wsum D (data.map fun _ => ((1 : ℝ), s)) := by
  induction data with
  | nil => simp [wsum, two_mul]
  | cons x data ih =>
    simp only [List.map_cons, wsum]
    rw [ih fun y hy => hd y (by simp [hy])]
    have hl : (wsum D (data.map fun x => ((1 : ℝ), x))).length = D := by
      apply length_wsum
      intro r hr
      obtain ⟨y, hy, rfl⟩ := List.mem_map.1 hr
      exact hd y (by simp [hy])
    simp only [vadd, vsmul, one_mul, List.map_id']
    rw [List.zipWith_append]
    rw [hl]; exact hd x (by simp)

end Verif.GammaModel
