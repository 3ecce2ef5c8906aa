import Mathlib.Algebra.BigOperators.Ring.List
import Mathlib.Algebra.Order.Field.Basic
import Mathlib.Algebra.Order.BigOperators.Group.List
import Mathlib.Data.List.GetD
import Mathlib.Tactic.FieldSimp
import Mathlib.Tactic.Linarith
import Mathlib.Tactic.LinearCombination
import Mathlib.Tactic.Ring
import Verif.Model.Dists

/-!
# Lemmas on vectors, statistics and conjugate updates
-/

namespace Verif.Dists

variable {K : Type*} [Field K]

theorem length_ngNatural (p : NG K) (h : p.rates.length = p.mean.length) :
    (ngNatural p).length = 2 * p.mean.length + 2 := by
  simp [ngNatural, h]; omega

/-- Reading the four blocks of a flat vector (`normalgamma.py` 76-83). -/
theorem ngFromNatural_blocks (A B : List K) (c d : K) (h : A.length = B.length) :
    ngFromNatural (A ++ B ++ [c, d]) = .ok
      { mean := A.map (· / (-2 * c)), scale := -2 * c, shape := d + 1/2,
        rates := List.zipWith (fun b m => -b - (1/2) * (-2 * c) * m ^ 2) B
          (A.map (· / (-2 * c))) } := by
  have hlen : (A ++ B ++ [c, d]).length = 2 * A.length + 2 := by simp [h]; omega
  have h1 : ¬ (A ++ B ++ [c, d]).length < 2 := by omega
  have hdim : ((A ++ B ++ [c, d]).length - 2) / 2 = A.length := by omega
  have e3 : (A ++ B ++ [c, d]).getD ((A ++ B ++ [c, d]).length - 2) 0 = c := by
    rw [hlen, show 2 * A.length + 2 - 2 = (A ++ B).length + 0 by simp [h]; omega,
      List.getD_append_right _ _ _ _ (by omega)]
    simp
  have e4 : (A ++ B ++ [c, d]).getD ((A ++ B ++ [c, d]).length - 1) 0 = d := by
    rw [hlen, show 2 * A.length + 2 - 1 = (A ++ B).length + 1 by simp [h]; omega,
      List.getD_append_right _ _ _ _ (by omega)]
    simp
  have e1 : (A ++ B ++ [c, d]).take A.length = A := by simp
  have e2 : ((A ++ B ++ [c, d]).take (2 * A.length)).drop A.length = B := by
    rw [show 2 * A.length = (A ++ B).length by simp [h]; omega, List.take_left, List.drop_left]
  unfold ngFromNatural
  rw [if_neg h1]
  dsimp only
  rw [hdim, e3, e4, e1, e2]

theorem ingFromNatural_blocks (A : List K) (b c d : K) :
    ingFromNatural (A ++ [b, c, d]) = .ok
      { mean := A.map (· / (-2 * c)), scale := -2 * c,
        shape := d + 1 - (1/2) * (A.length : K),
        rate := -b - (1/2) * (-2 * c) * ((A.map (· / (-2 * c))).map (fun m => m * m)).sum } := by
  have hlen : (A ++ [b, c, d]).length = A.length + 3 := by simp
  have h1 : ¬ (A ++ [b, c, d]).length < 3 := by omega
  have hdim : (A ++ [b, c, d]).length - 3 = A.length := by omega
  have e2 : (A ++ [b, c, d]).getD A.length 0 = b := by
    rw [List.getD_append_right _ _ _ _ (by omega)]; simp
  have e3 : (A ++ [b, c, d]).getD ((A ++ [b, c, d]).length - 2) 0 = c := by
    rw [hlen, List.getD_append_right _ _ _ _ (by omega),
      show A.length + 3 - 2 - A.length = 1 by omega]; simp
  have e4 : (A ++ [b, c, d]).getD ((A ++ [b, c, d]).length - 1) 0 = d := by
    rw [hlen, List.getD_append_right _ _ _ _ (by omega),
      show A.length + 3 - 1 - A.length = 2 by omega]; simp
  have e1 : (A ++ [b, c, d]).take A.length = A := by simp
  unfold ingFromNatural
  rw [if_neg h1]
  dsimp only
  rw [hdim, e2, e3, e4, e1]

/-! ## Vector operations -/

@[simp] theorem length_vadd (a b : List K) : (vadd a b).length = min a.length b.length := by
  simp [vadd]

@[simp] theorem length_vsub (a b : List K) : (vsub a b).length = min a.length b.length := by
  simp [vsub]

@[simp] theorem length_vsmul (c : K) (a : List K) : (vsmul c a).length = a.length := by
  simp [vsmul]

theorem vadd_append (a a' b b' : List K) (h : a.length = a'.length) :
    vadd (a ++ b) (a' ++ b') = vadd a a' ++ vadd b b' := by
  simp [vadd, List.zipWith_append h]

theorem vsmul_append (c : K) (a b : List K) : vsmul c (a ++ b) = vsmul c a ++ vsmul c b := by
  simp [vsmul]

theorem vadd_left_comm (a b c : List K) : vadd a (vadd b c) = vadd b (vadd a c) := by
  apply List.ext_getElem
  · simp; omega
  · intro i h1 h2
    simp [vadd]
    ring

theorem wsum_perm (n : ℕ) {l l' : List (K × List K)} (h : l.Perm l') : wsum n l = wsum n l' := by
  induction h with
  | nil => rfl
  | cons x _ ih => simp [wsum, ih]
  | swap x y l => simp only [wsum]; exact vadd_left_comm _ _ _
  | trans _ _ ih1 ih2 => exact ih1.trans ih2

theorem length_wsum (n : ℕ) (l : List (K × List K)) (h : ∀ r ∈ l, r.2.length = n) :
    (wsum n l).length = n := by
  induction l with
  | nil => simp [wsum]
  | cons x l ih =>
    simp [wsum, ih (fun r hr => h r (by simp [hr])), h x (by simp)]

theorem getD_vadd (a b : List K) (h : a.length = b.length) (i : ℕ) :
    (vadd a b).getD i 0 = a.getD i 0 + b.getD i 0 := by
  rcases Nat.lt_or_ge i a.length with hi | hi
  · have hi' : i < b.length := by omega
    simp [vadd, List.getD_eq_getElem?_getD, hi, hi']
  · have hi' : b.length ≤ i := by omega
    simp [vadd, List.getD_eq_getElem?_getD, hi, hi']

theorem getD_vsmul (c : K) (a : List K) (i : ℕ) : (vsmul c a).getD i 0 = c * a.getD i 0 := by
  rcases Nat.lt_or_ge i a.length with hi | hi
  · simp [vsmul, List.getD_eq_getElem?_getD, hi]
  · simp [vsmul, List.getD_eq_getElem?_getD, hi]

theorem getD_wsum (n : ℕ) (l : List (K × List K)) (h : ∀ r ∈ l, r.2.length = n) (i : ℕ) :
    (wsum n l).getD i 0 = (l.map (fun r => r.1 * r.2.getD i 0)).sum := by
  induction l with
  | nil =>
    simp only [wsum, List.map_nil, List.sum_nil, List.getD_eq_getElem?_getD]
    rcases Nat.lt_or_ge i n with hi | hi <;> simp [hi]
  | cons x l ih =>
    have h' : ∀ r ∈ l, r.2.length = n := fun r hr => h r (by simp [hr])
    simp only [wsum]
    rw [getD_vadd _ _ (by simp [length_wsum n l h', h x (by simp)]), getD_vsmul, ih h']
    simp

theorem ext_getD {a b : List K} (h : a.length = b.length)
    (hi : ∀ i, i < a.length → a.getD i 0 = b.getD i 0) : a = b := by
  apply List.ext_getElem h
  intro i h1 h2
  have := hi i h1
  simpa [List.getD_eq_getElem?_getD, h1, h2] using this

/-- The natural-gradient step is a convex combination of the old natural parameters and of the
natural parameters of the exact conjugate posterior. -/
theorem natGrad_combination (n p s : List K) (l : K) (h1 : p.length = n.length)
    (h2 : s.length = n.length) :
    vadd n (vsmul l (vsub (vadd p s) n)) = vadd (vsmul (1 - l) n) (vsmul l (vadd p s)) := by
  apply List.ext_getElem
  · simp [h1, h2]
  · intro i h3 h4
    simp [vadd, vsmul, vsub]
    ring

theorem natGrad_one (n p s : List K) (h1 : p.length = n.length) (h2 : s.length = n.length) :
    vadd n (vsmul 1 (vsub (vadd p s) n)) = vadd p s := by
  apply List.ext_getElem
  · simp [h1, h2]
  · intro i h3 h4
    simp [vadd, vsmul, vsub]

/-! ## Categorical statistics -/

theorem sum_vadd (a b : List K) (h : a.length = b.length) : (vadd a b).sum = a.sum + b.sum := by
  induction a generalizing b with
  | nil => cases b <;> simp_all [vadd]
  | cons x a ih =>
    cases b with
    | nil => simp at h
    | cons y b =>
      have := ih b (by simpa using h)
      simp only [vadd, List.zipWith_cons_cons, List.sum_cons] at this ⊢
      rw [this]; ring

theorem sum_vsmul (c : K) (a : List K) : (vsmul c a).sum = c * a.sum := by
  induction a with
  | nil => simp [vsmul]
  | cons x a ih =>
    simp only [vsmul, List.map_cons, List.sum_cons] at ih ⊢
    rw [ih]; ring

theorem dropLast_vadd (a b : List K) (h : a.length = b.length) :
    (vadd a b).dropLast = vadd a.dropLast b.dropLast := by
  apply List.ext_getElem
  · simp [h]
  · intro i h1 h2
    simp [vadd]

theorem catStats_vadd (a b : List K) (h : a.length = b.length) :
    catStats (vadd a b) = vadd (catStats a) (catStats b) := by
  unfold catStats
  rw [vadd_append _ _ _ _ (by simp [h]), dropLast_vadd a b h, sum_vadd a b h]
  rfl

theorem catStats_vsmul (c : K) (a : List K) : catStats (vsmul c a) = vsmul c (catStats a) := by
  unfold catStats
  rw [vsmul_append, sum_vsmul]
  simp [vsmul, List.map_dropLast]

theorem length_catStats (a : List K) (h : a ≠ []) : (catStats a).length = a.length := by
  have : 0 < a.length := List.length_pos_iff.2 h
  simp [catStats]; omega

theorem wsum_catStats (n : ℕ) (hn : 0 < n) (l : List (K × List K))
    (h : ∀ r ∈ l, r.2.length = n) :
    wsum n (l.map fun r => (r.1, catStats r.2)) = catStats (wsum n l) := by
  induction l with
  | nil =>
    obtain ⟨m, rfl⟩ : ∃ m, n = m + 1 := ⟨n - 1, by omega⟩
    simp only [wsum, List.map_nil, catStats, List.dropLast_replicate, List.sum_replicate, smul_zero]
    rw [List.replicate_succ']
    rfl
  | cons x l ih =>
    have h' : ∀ r ∈ l, r.2.length = n := fun r hr => h r (by simp [hr])
    simp only [wsum, List.map_cons]
    rw [catStats_vadd _ _ (by simp [length_wsum n l h', h x (by simp)]), catStats_vsmul, ih h']

theorem dirNatural_eq_catStats (c : List K) : dirNatural c = catStats (c.map (· - 1)) := rfl

theorem dirFromNatural_catStats (y : List K) (h : y ≠ []) :
    dirFromNatural (catStats y) = .ok (y.map (· + 1)) := by
  obtain ⟨l, x, rfl⟩ := List.eq_nil_or_concat y |>.resolve_left h
  simp [dirFromNatural, catStats, Function.comp_def]

/-! ## Four-block vectors (Normal-Gamma) -/

theorem vadd_blocks4 (A A' B B' : List K) (c c' d d' : K) (hA : A.length = A'.length)
    (hB : B.length = B'.length) :
    vadd (A ++ B ++ [c, d]) (A' ++ B' ++ [c', d']) =
      vadd A A' ++ vadd B B' ++ [c + c', d + d'] := by
  rw [vadd_append _ _ _ _ (by simp [hA, hB]), vadd_append _ _ _ _ hA]
  rfl

theorem vsmul_blocks4 (l : K) (A B : List K) (c d : K) :
    vsmul l (A ++ B ++ [c, d]) = vsmul l A ++ vsmul l B ++ [l * c, l * d] := by
  simp [vsmul]

/-- Weighted statistics of the diagonal-normal likelihood. -/
theorem wsum_ngStats (D : ℕ) (data : List (K × List K)) (h : ∀ r ∈ data, r.2.length = D) :
    wsum (2 * D + 2) (data.map fun r => (r.1, ngStats r.2)) =
      wsum D data ++ wsum D (data.map fun r => (r.1, r.2.map fun v => -(1/2) * v ^ 2)) ++
      [-(1/2) * (data.map (·.1)).sum, (1/2) * (data.map (·.1)).sum] := by
  induction data with
  | nil =>
    simp only [wsum, List.map_nil, List.sum_nil, mul_zero]
    rw [show 2 * D + 2 = D + D + 2 by omega, List.replicate_add, List.replicate_add]
    rfl
  | cons x data ih =>
    have h' : ∀ r ∈ data, r.2.length = D := fun r hr => h r (by simp [hr])
    have hx : x.2.length = D := h x (by simp)
    simp only [wsum, List.map_cons]
    rw [ih h']
    unfold ngStats
    rw [vsmul_blocks4, vadd_blocks4 _ _ _ _ _ _ _ _ (by simp [length_wsum D data h', hx])
      (by
        rw [length_wsum D _ (by
          intro r hr
          obtain ⟨r', hr', rfl⟩ := List.mem_map.1 hr
          simpa using h' r' hr')]
        simp [hx])]
    congr 1
    simp only [List.sum_cons, List.cons.injEq, and_true]
    constructor <;> ring

/-! ## Isotropic blocks -/

theorem vadd_blocks3 (A A' : List K) (b b' c c' d d' : K) (hA : A.length = A'.length) :
    vadd (A ++ [b, c, d]) (A' ++ [b', c', d']) = vadd A A' ++ [b + b', c + c', d + d'] := by
  rw [vadd_append _ _ _ _ hA]
  rfl

theorem vsmul_blocks3 (l : K) (A : List K) (b c d : K) :
    vsmul l (A ++ [b, c, d]) = vsmul l A ++ [l * b, l * c, l * d] := by
  simp [vsmul]

theorem wsum_ingStats (D : ℕ) (data : List (K × List K)) (h : ∀ r ∈ data, r.2.length = D) :
    wsum (D + 3) (data.map fun r => (r.1, ingStats r.2)) =
      wsum D data ++ [-(1/2) * (data.map fun r => r.1 * (r.2.map (· ^ 2)).sum).sum,
        -(1/2) * (data.map (·.1)).sum, (1/2) * (D : K) * (data.map (·.1)).sum] := by
  induction data with
  | nil =>
    simp only [wsum, List.map_nil, List.sum_nil, mul_zero]
    rw [List.replicate_add]
    rfl
  | cons x data ih =>
    have h' : ∀ r ∈ data, r.2.length = D := fun r hr => h r (by simp [hr])
    have hx : x.2.length = D := h x (by simp)
    simp only [wsum, List.map_cons]
    rw [ih h']
    unfold ingStats
    rw [vsmul_blocks3, vadd_blocks3 _ _ _ _ _ _ _ _ (by simp [length_wsum D data h', hx])]
    congr 1
    simp only [List.sum_cons, List.cons.injEq, and_true, hx]
    refine ⟨?_, ?_, ?_⟩ <;> ring

/-! ## Inequalities -/

section order
variable [LinearOrder K] [IsStrictOrderedRing K]

/-- Quadratic-over-linear is subadditive. -/
theorem quad_over_lin {a b k k' q q' : K} (hk : 0 ≤ k) (hk' : 0 ≤ k') (hq : 0 ≤ q) (hq' : 0 ≤ q')
    (ha : a ^ 2 ≤ k * q) (hb : b ^ 2 ≤ k' * q') : (a + b) ^ 2 ≤ (k + k') * (q + q') := by
  have h1 : (2 * (a * b)) ^ 2 ≤ (k * q' + k' * q) ^ 2 := by
    have h3 : (a * b) ^ 2 ≤ (k * q) * (k' * q') := by
      rw [mul_pow]
      exact mul_le_mul ha hb (sq_nonneg _) (by positivity)
    have h4 : 0 ≤ (k * q' - k' * q) ^ 2 := sq_nonneg _
    nlinarith
  have h2 : 2 * (a * b) ≤ k * q' + k' * q :=
    le_trans (le_abs_self _) (abs_le_of_sq_le_sq h1 (by positivity))
  nlinarith

/-- Cauchy–Schwarz for weighted data. -/
theorem weighted_sq_le (data : List (K × K)) (h : ∀ d ∈ data, 0 ≤ d.1) :
    (data.map fun d => d.1 * d.2).sum ^ 2 ≤
      (data.map (·.1)).sum * (data.map fun d => d.1 * d.2 ^ 2).sum ∧
    0 ≤ (data.map (·.1)).sum ∧ 0 ≤ (data.map fun d => d.1 * d.2 ^ 2).sum := by
  induction data with
  | nil => simp
  | cons x data ih =>
    obtain ⟨i1, i2, i3⟩ := ih (fun d hd => h d (by simp [hd]))
    have hx := h x (by simp)
    simp only [List.map_cons, List.sum_cons]
    refine ⟨quad_over_lin hx i2 (by positivity) i3 (le_of_eq (by ring)) i1, by positivity,
      by positivity⟩

end order

end Verif.Dists
