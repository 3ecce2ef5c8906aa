import Verif.Spec.EvalInfo
import Verif.Model.EvalInfo
import Verif.Lemmas.Eval
import Mathlib.Topology.Algebra.Order.Field
import Mathlib.Algebra.Order.BigOperators.Group.Finset

namespace Verif.Eval

open Verif Pipeline Scoring EvalSpec

variable {ι κ : Type}

/-! ## Gibbs' inequality -/

theorem gibbs_term (p q : ℝ) (hp : 0 ≤ p) (hq : 0 < q) : p - q ≤ p * Real.log (p / q) := by
  rcases hp.eq_or_lt with rfl | hp
  · simp [hq.le]
  · have h := Real.log_le_sub_one_of_pos (show 0 < q / p by positivity)
    rw [Real.log_div hq.ne' hp.ne'] at h
    rw [Real.log_div hp.ne' hq.ne']
    have h2 := mul_le_mul_of_nonneg_left h hp.le
    have h3 : p * (q / p - 1) = q - p := by field_simp
    rw [h3] at h2
    linarith

theorem gibbs_term_eq (p q : ℝ) (hp : 0 ≤ p) (hq : 0 < q) (h : p * Real.log (p / q) = p - q) : p = q := by
  rcases hp.eq_or_lt with rfl | hp
  · simp at h; linarith
  · by_contra hne
    have h1 : q / p ≠ 1 := by
      intro h2
      rw [div_eq_one_iff_eq hp.ne'] at h2
      exact hne h2.symm
    have h2 := Real.log_lt_sub_one_of_pos (show 0 < q / p by positivity) h1
    rw [Real.log_div hq.ne' hp.ne'] at h2
    rw [Real.log_div hp.ne' hq.ne'] at h
    have h3 := mul_lt_mul_of_pos_left h2 hp
    have h4 : p * (q / p - 1) = q - p := by field_simp
    rw [h4] at h3
    linarith

theorem gibbs (S : Finset ι) (p q : ι → ℝ) (hp : ∀ i ∈ S, 0 ≤ p i) (hq : ∀ i ∈ S, 0 < q i)
    (hs : ∑ i ∈ S, p i = ∑ i ∈ S, q i) :
    0 ≤ ∑ i ∈ S, p i * Real.log (p i / q i) ∧
      (∑ i ∈ S, p i * Real.log (p i / q i) = 0 ↔ ∀ i ∈ S, p i = q i) := by
  have h1 : ∑ i ∈ S, (p i - q i) ≤ ∑ i ∈ S, p i * Real.log (p i / q i) :=
    Finset.sum_le_sum fun i hi => gibbs_term _ _ (hp i hi) (hq i hi)
  have h0 : ∑ i ∈ S, (p i - q i) = 0 := by rw [Finset.sum_sub_distrib, hs, sub_self]
  refine ⟨by rw [h0] at h1; exact h1, fun h => ?_, fun h => ?_⟩
  · have h2 : ∑ i ∈ S, (p i - q i) = ∑ i ∈ S, p i * Real.log (p i / q i) := by rw [h0, h]
    have h3 := (Finset.sum_eq_sum_iff_of_le fun i hi => gibbs_term _ _ (hp i hi) (hq i hi)).1 h2
    exact fun i hi => gibbs_term_eq _ _ (hp i hi) (hq i hi) (h3 i hi).symm
  · refine Finset.sum_eq_zero fun i hi => ?_
    rw [h i hi, div_self (hq i hi).ne', Real.log_one, mul_zero]

/-! ## Entropies of a table of counts -/

section table

variable {A : Finset ι} {P : Finset κ} {n : ι → κ → ℝ}

/-- Non-negative counts without empty row or column. -/
structure GoodTable (A : Finset ι) (P : Finset κ) (n : ι → κ → ℝ) : Prop where
  nonneg : ∀ u ∈ A, ∀ p ∈ P, 0 ≤ n u p
  row : ∀ u ∈ A, 0 < ∑ p ∈ P, n u p
  col : ∀ p ∈ P, 0 < ∑ u ∈ A, n u p
  ne : A.Nonempty

theorem GoodTable.tot_pos (h : GoodTable A P n) : 0 < tot A P n := Finset.sum_pos h.row h.ne

theorem tot_comm (A : Finset ι) (P : Finset κ) (n : ι → κ → ℝ) :
    tot A P n = tot P A fun p u => n u p := Finset.sum_comm

theorem GoodTable.swap (h : GoodTable A P n) : GoodTable P A fun p u => n u p where
  nonneg := fun p hp u hu => h.nonneg u hu p hp
  row := h.col
  col := h.row
  ne := by
    obtain ⟨u, hu⟩ := h.ne
    by_contra hP
    rw [Finset.not_nonempty_iff_eq_empty] at hP
    have := h.row u hu
    rw [hP] at this
    simp at this

theorem GoodTable.margX_pos (h : GoodTable A P n) {u : ι} (hu : u ∈ A) : 0 < margX A P n u :=
  div_pos (h.row u hu) h.tot_pos

theorem GoodTable.margY_pos (h : GoodTable A P n) {p : κ} (hp : p ∈ P) : 0 < margY A P n p :=
  div_pos (h.col p hp) h.tot_pos

theorem GoodTable.margX_sum (h : GoodTable A P n) : ∑ u ∈ A, margX A P n u = 1 := by
  unfold margX
  rw [← Finset.sum_div]
  exact div_self h.tot_pos.ne'

theorem GoodTable.margY_sum (h : GoodTable A P n) : ∑ p ∈ P, margY A P n p = 1 := by
  unfold margY
  rw [← Finset.sum_div, ← Finset.sum_comm]
  exact div_self h.tot_pos.ne'

/-- `H(Y | X)` in nats. -/
noncomputable def condEnt (A : Finset ι) (P : Finset κ) (n : ι → κ → ℝ) : ℝ :=
  - ∑ u ∈ A, ∑ p ∈ P, n u p / tot A P n * Real.log (n u p / ∑ q ∈ P, n u q)

theorem condEnt_term (h : GoodTable A P n) {u : ι} (hu : u ∈ A) {p : κ} (hp : p ∈ P) :
    n u p / tot A P n * Real.log (n u p / ∑ q ∈ P, n u q) ≤ 0 ∧
      (n u p / tot A P n * Real.log (n u p / ∑ q ∈ P, n u q) = 0 ↔
        n u p = 0 ∨ n u p = ∑ q ∈ P, n u q) := by
  have hr := h.row u hu
  have h0 := h.nonneg u hu p hp
  have hle : n u p ≤ ∑ q ∈ P, n u q := Finset.single_le_sum (f := fun q => n u q) (h.nonneg u hu) hp
  have hN := h.tot_pos
  constructor
  · refine mul_nonpos_of_nonneg_of_nonpos (div_nonneg h0 hN.le) ?_
    exact Real.log_nonpos (div_nonneg h0 hr.le) ((div_le_one hr).2 hle)
  · rw [mul_eq_zero, div_eq_zero_iff, or_iff_left hN.ne']
    constructor
    · rintro (h1 | h1)
      · exact Or.inl h1
      · rw [Real.log_eq_zero] at h1
        rcases h1 with h1 | h1 | h1
        · rw [div_eq_zero_iff, or_iff_left hr.ne'] at h1; exact Or.inl h1
        · rw [div_eq_one_iff_eq hr.ne'] at h1; exact Or.inr h1
        · have : 0 ≤ n u p / ∑ q ∈ P, n u q := div_nonneg h0 hr.le
          linarith
    · rintro (h1 | h1)
      · exact Or.inl h1
      · refine Or.inr ?_
        rw [← h1, div_self, Real.log_one]
        rw [h1]; exact hr.ne'

theorem condEnt_nonneg (h : GoodTable A P n) : 0 ≤ condEnt A P n := by
  unfold condEnt
  rw [Left.nonneg_neg_iff]
  exact Finset.sum_nonpos fun u hu => Finset.sum_nonpos fun p hp => (condEnt_term h hu hp).1

theorem condEnt_zero_iff (h : GoodTable A P n) : condEnt A P n = 0 ↔ Determines A P n := by
  unfold condEnt
  rw [neg_eq_zero, Finset.sum_eq_zero_iff_of_nonpos fun u hu =>
    Finset.sum_nonpos fun p hp => (condEnt_term h hu hp).1]
  have h1 : ∀ u ∈ A, (∑ p ∈ P, n u p / tot A P n * Real.log (n u p / ∑ q ∈ P, n u q) = 0 ↔
      ∀ p ∈ P, n u p = 0 ∨ n u p = ∑ q ∈ P, n u q) := by
    intro u hu
    rw [Finset.sum_eq_zero_iff_of_nonpos fun p hp => (condEnt_term h hu hp).1]
    exact forall₂_congr fun p hp => (condEnt_term h hu hp).2
  constructor
  · intro H u hu p hp q hq hnp hnq
    have H := (h1 u hu).1 (H u hu)
    by_contra hpq
    have e1 := (H p hp).resolve_left hnp
    have e2 : n u p + n u q ≤ ∑ r ∈ P, n u r := by
      classical
      rw [← Finset.sum_pair (f := fun r => n u r) hpq]
      refine Finset.sum_le_sum_of_subset_of_nonneg ?_ fun r hr _ => h.nonneg u hu r hr
      intro r hr
      simp only [Finset.mem_insert, Finset.mem_singleton] at hr
      rcases hr with rfl | rfl <;> assumption
    have e3 : 0 < n u q := lt_of_le_of_ne (h.nonneg u hu q hq) (Ne.symm hnq)
    linarith
  · intro H u hu
    rw [h1 u hu]
    intro p hp
    by_cases hnp : n u p = 0
    · exact Or.inl hnp
    · refine Or.inr ?_
      symm
      refine Finset.sum_eq_single p (fun q hq hqp => ?_) fun hp' => absurd hp hp'
      by_contra hnq
      exact hqp (H u hu p hp q hq hnp hnq).symm

theorem mutualInfo_eq (h : GoodTable A P n) :
    mutualInfo A P n * Real.log 2 = (∑ p ∈ P, Real.negMulLog (margY A P n p)) - condEnt A P n := by
  have hl : Real.log 2 ≠ 0 := (Real.log_pos (by norm_num)).ne'
  unfold mutualInfo condEnt
  rw [div_mul_cancel₀ _ hl, sub_neg_eq_add]
  have h1 : ∑ p ∈ P, Real.negMulLog (margY A P n p) =
      - ∑ u ∈ A, ∑ p ∈ P, n u p / tot A P n * Real.log (margY A P n p) := by
    rw [Finset.sum_comm, ← Finset.sum_neg_distrib]
    refine Finset.sum_congr rfl fun p _ => ?_
    rw [← Finset.sum_mul, ← Finset.sum_div]
    unfold Real.negMulLog margY
    ring
  rw [h1, neg_add_eq_sub, ← Finset.sum_sub_distrib]
  refine Finset.sum_congr rfl fun u hu => ?_
  rw [← Finset.sum_sub_distrib]
  refine Finset.sum_congr rfl fun p hp => ?_
  rw [← mul_sub]
  rcases (h.nonneg u hu p hp).eq_or_lt with h0 | h0
  · rw [← h0]; simp
  · congr 1
    have hy := h.margY_pos hp
    have hr := h.row u hu
    have hN := h.tot_pos
    rw [← Real.log_div (by positivity) hy.ne']
    congr 1
    unfold margX
    field_simp

theorem mutualInfo_swap (A : Finset ι) (P : Finset κ) (n : ι → κ → ℝ) :
    mutualInfo A P n = mutualInfo P A fun p u => n u p := by
  unfold mutualInfo
  rw [Finset.sum_comm]
  congr 1
  refine Finset.sum_congr rfl fun p _ => Finset.sum_congr rfl fun u _ => ?_
  have h1 : margX A P n u = margY P A (fun p u => n u p) u := by unfold margX margY; rw [tot_comm]
  have h2 : margY A P n p = margX P A (fun p u => n u p) p := by unfold margX margY; rw [tot_comm]
  rw [h1, h2, tot_comm, mul_comm (margY P A _ u)]

theorem mutualInfo_nonneg (h : GoodTable A P n) :
    0 ≤ mutualInfo A P n ∧ (mutualInfo A P n = 0 ↔ Indep A P n) := by
  have hl : 0 < Real.log 2 := Real.log_pos (by norm_num)
  have hN := h.tot_pos
  have key := gibbs (A ×ˢ P) (fun x => n x.1 x.2 / tot A P n) (fun x => margX A P n x.1 * margY A P n x.2)
    (fun x hx => div_nonneg (h.nonneg _ (Finset.mem_product.1 hx).1 _ (Finset.mem_product.1 hx).2) hN.le)
    (fun x hx => mul_pos (h.margX_pos (Finset.mem_product.1 hx).1) (h.margY_pos (Finset.mem_product.1 hx).2))
    (by
      rw [Finset.sum_product, Finset.sum_product]
      have h1 : ∑ u ∈ A, ∑ p ∈ P, n u p / tot A P n = 1 := by
        simp only [← Finset.sum_div]
        exact div_self hN.ne'
      have h2 : ∑ u ∈ A, ∑ p ∈ P, margX A P n u * margY A P n p = 1 := by
        simp only [← Finset.mul_sum]
        rw [← Finset.sum_mul, h.margX_sum, h.margY_sum, one_mul]
      dsimp only
      rw [h1, h2])
  rw [Finset.sum_product] at key
  dsimp only at key
  unfold mutualInfo
  refine ⟨div_nonneg key.1 hl.le, ?_⟩
  rw [div_eq_zero_iff, or_iff_left hl.ne', key.2]
  have e : ∀ u p, (n u p / tot A P n = margX A P n u * margY A P n p ↔
      n u p * tot A P n = (∑ q ∈ P, n u q) * ∑ v ∈ A, n v p) := by
    intro u p
    unfold margX margY
    rw [div_mul_div_comm, div_eq_div_iff hN.ne' (mul_pos hN hN).ne']
    constructor
    · intro h1
      have h2 : (n u p * tot A P n) * tot A P n = ((∑ q ∈ P, n u q) * ∑ v ∈ A, n v p) * tot A P n := by
        rw [← h1]; ring
      exact mul_right_cancel₀ hN.ne' h2
    · intro h1
      rw [← mul_assoc, h1]
  constructor
  · intro h1 u hu p hp
    exact (e u p).1 (h1 (u, p) (Finset.mem_product.2 ⟨hu, hp⟩))
  · intro h1 x hx
    exact (e x.1 x.2).2 (h1 x.1 (Finset.mem_product.1 hx).1 x.2 (Finset.mem_product.1 hx).2)

theorem mutualInfo_le (h : GoodTable A P n) :
    mutualInfo A P n ≤ entropy2 P (margY A P n) ∧
      (mutualInfo A P n = entropy2 P (margY A P n) ↔ Determines A P n) := by
  have hl : 0 < Real.log 2 := Real.log_pos (by norm_num)
  have h1 := mutualInfo_eq h
  have h2 : entropy2 P (margY A P n) * Real.log 2 = ∑ p ∈ P, Real.negMulLog (margY A P n p) :=
    div_mul_cancel₀ _ hl.ne'
  have h3 : (entropy2 P (margY A P n) - mutualInfo A P n) * Real.log 2 = condEnt A P n := by
    rw [sub_mul, h1, h2]; ring
  constructor
  · have := condEnt_nonneg h
    rw [← h3] at this
    have := nonneg_of_mul_nonneg_left this hl
    linarith
  · rw [← condEnt_zero_iff h, ← h3, mul_eq_zero, or_iff_left hl.ne', sub_eq_zero]
    exact eq_comm

theorem entropy_nonneg (S : Finset ι) (p : ι → ℝ) (h0 : ∀ i ∈ S, 0 ≤ p i) (h1 : ∑ i ∈ S, p i = 1) :
    0 ≤ entropy2 S p := by
  have hl : 0 < Real.log 2 := Real.log_pos (by norm_num)
  refine div_nonneg (Finset.sum_nonneg fun i hi => ?_) hl.le
  exact Real.negMulLog_nonneg (h0 i hi) (h1 ▸ Finset.single_le_sum h0 hi)

theorem entropy_pos (S : Finset ι) (p : ι → ℝ) (h0 : ∀ i ∈ S, 0 < p i) (h1 : ∑ i ∈ S, p i = 1)
    (hc : 2 ≤ S.card) : 0 < entropy2 S p := by
  have hl : 0 < Real.log 2 := Real.log_pos (by norm_num)
  refine div_pos (Finset.sum_pos (fun i hi => ?_) (Finset.card_pos.1 (by omega))) hl
  unfold Real.negMulLog
  have hlt : p i < 1 := by
    classical
    obtain ⟨j, hj, hne⟩ := Finset.exists_mem_ne (by omega : 1 < S.card) i
    rw [← h1]
    exact Finset.single_lt_sum hne hi hj (h0 j hj) fun k hk _ => (h0 k hk).le
  have := Real.log_neg (h0 i hi) hlt
  nlinarith [h0 i hi]

theorem entropy_le (S : Finset ι) (p : ι → ℝ) (h0 : ∀ i ∈ S, 0 < p i) (h1 : ∑ i ∈ S, p i = 1)
    (hS : S.Nonempty) :
    entropy2 S p ≤ Real.logb 2 S.card ∧
      (entropy2 S p = Real.logb 2 S.card ↔ ∀ i ∈ S, p i = 1 / S.card) := by
  have hl : 0 < Real.log 2 := Real.log_pos (by norm_num)
  have hK : (0 : ℝ) < S.card := by exact_mod_cast Finset.card_pos.2 hS
  have key := gibbs S p (fun _ => 1 / (S.card : ℝ)) (fun i hi => (h0 i hi).le) (fun _ _ => by positivity)
    (by rw [h1, Finset.sum_const, nsmul_eq_mul]; field_simp)
  have e : ∑ i ∈ S, p i * Real.log (p i / (1 / (S.card : ℝ))) =
      Real.log S.card - ∑ i ∈ S, Real.negMulLog (p i) := by
    have : ∀ i ∈ S, p i * Real.log (p i / (1 / (S.card : ℝ))) =
        p i * Real.log S.card - Real.negMulLog (p i) := by
      intro i hi
      rw [div_div_eq_mul_div, div_one, Real.log_mul (h0 i hi).ne' hK.ne']
      unfold Real.negMulLog
      ring
    rw [Finset.sum_congr rfl this, Finset.sum_sub_distrib, ← Finset.sum_mul, h1, one_mul]
  rw [e] at key
  unfold entropy2 Real.logb
  constructor
  · rw [div_le_div_iff_of_pos_right hl]; linarith [key.1]
  · rw [← key.2, div_left_inj' hl.ne', sub_eq_zero]
    exact eq_comm

end table

/-! ## `nmi.py` -/

theorem countsMatrix_inner (u : String) (l : List (String × ℕ)) (hn : (l.map Prod.fst).Nodup)
    (c : String → String → ℝ) (a p : String) :
    l.foldl (fun c y a p => if a = u ∧ p = y.1 then c a p + (y.2 : ℝ) else c a p) c a p =
      if a = u then c a p + (((l.lookup p).getD 0 : ℕ) : ℝ) else c a p := by
  induction l generalizing c with
  | nil => simp
  | cons y l ih =>
    obtain ⟨k, v⟩ := y
    simp only [List.map_cons, List.nodup_cons] at hn
    rw [List.foldl_cons, ih hn.2]
    by_cases ha : a = u
    · by_cases hp : p = k
      · subst hp
        have : l.lookup p = none := (lookup_none l p).2 hn.1
        simp [ha, this]
      · have : (p == k) = false := by simpa using hp
        simp [ha, hp, List.lookup_cons, this]
    · simp [ha]

theorem tableOf_cons (u : String) (l : List (String × ℕ)) (m : Counts) (a p : String) :
    tableOf ((u, l) :: m) a p = if a = u then (l.lookup p).getD 0 else tableOf m a p := by
  unfold tableOf
  by_cases ha : a = u
  · subst ha; simp
  · have : (a == u) = false := by simpa using ha
    simp [ha, List.lookup_cons, this]

theorem tableOf_none (m : Counts) (a p : String) (h : a ∉ m.map Prod.fst) : tableOf m a p = 0 := by
  unfold tableOf
  rw [(lookup_none m a).2 h]
  rfl

theorem countsMatrix_foldl (m : Counts) (h1 : (m.map Prod.fst).Nodup)
    (h2 : ∀ x ∈ m, (x.2.map Prod.fst).Nodup) (c : String → String → ℝ) (a p : String) :
    m.foldl (fun c x => x.2.foldl
      (fun c y a p => if a = x.1 ∧ p = y.1 then c a p + (y.2 : ℝ) else c a p) c) c a p =
      c a p + (tableOf m a p : ℝ) := by
  induction m generalizing c with
  | nil => simp [tableOf]
  | cons x m ih =>
    obtain ⟨u, l⟩ := x
    simp only [List.map_cons, List.nodup_cons] at h1
    rw [List.foldl_cons, ih h1.2 fun x hx => h2 x (List.mem_cons_of_mem _ hx),
      countsMatrix_inner u l (h2 (u, l) List.mem_cons_self), tableOf_cons]
    by_cases ha : a = u
    · subst ha
      simp [tableOf_none m a p h1.1]
    · simp [ha]

theorem countsMatrix_eq (eps : ℝ) (m : Counts) (h : ValidCounts m) :
    countsMatrix eps m = fun u p => eps + (tableOf m u p : ℝ) := by
  funext u p
  exact countsMatrix_foldl m h.outer (fun x hx => (h.inner x hx).1) _ u p

theorem tableOf_mem (m : Counts) (h : ValidCounts m) {x : String × List (String × ℕ)} (hx : x ∈ m)
    {y : String × ℕ} (hy : y ∈ x.2) : tableOf m x.1 y.1 = y.2 := by
  unfold tableOf
  rw [lookup_of_mem m h.outer x.1 x.2 hx]
  simp only [Option.getD_some]
  rw [lookup_of_mem x.2 (h.inner x hx).1 y.1 y.2 hy]
  rfl

theorem good_of_valid (m : Counts) (h : ValidCounts m) (hm : m ≠ []) (eps : ℝ) (he : 0 ≤ eps) :
    GoodTable (units m) (phones m) fun u p => eps + (tableOf m u p : ℝ) where
  nonneg := fun u _ p _ => by positivity
  row := by
    intro u hu
    obtain ⟨x, hx, rfl⟩ := List.mem_map.1 (List.mem_toFinset.1 hu)
    obtain ⟨y, hy⟩ := List.exists_mem_of_ne_nil _ (h.inner x hx).2
    have h1 := h.pos x hx y hy
    have h2 : y.1 ∈ phones m :=
      List.mem_toFinset.2 (List.mem_flatMap.2 ⟨x, hx, List.mem_map_of_mem hy⟩)
    refine Finset.sum_pos' (fun p _ => by positivity) ⟨y.1, h2, ?_⟩
    rw [tableOf_mem m h hx hy]
    have : (0 : ℝ) < y.2 := by exact_mod_cast h1
    positivity
  col := by
    intro p hp
    obtain ⟨x, hx, hp⟩ := List.mem_flatMap.1 (List.mem_toFinset.1 hp)
    obtain ⟨y, hy, rfl⟩ := List.mem_map.1 hp
    have h1 := h.pos x hx y hy
    have h2 : x.1 ∈ units m := List.mem_toFinset.2 (List.mem_map_of_mem hx)
    refine Finset.sum_pos' (fun p _ => by positivity) ⟨x.1, h2, ?_⟩
    rw [tableOf_mem m h hx hy]
    have : (0 : ℝ) < y.2 := by exact_mod_cast h1
    positivity
  ne := by
    obtain ⟨x, hx⟩ := List.exists_mem_of_ne_nil _ hm
    exact ⟨x.1, List.mem_toFinset.2 (List.mem_map_of_mem hx)⟩

open Filter Topology

section limit

variable {A P : Finset String} {n : String → String → ℝ}

theorem tot_tendsto : Tendsto (fun e : ℝ => ∑ u ∈ A, ∑ p ∈ P, (e + n u p)) (𝓝 0) (𝓝 (tot A P n)) := by
  unfold tot
  refine tendsto_finset_sum _ fun u _ => tendsto_finset_sum _ fun p _ => ?_
  have : Tendsto (fun e : ℝ => e + n u p) (𝓝 0) (𝓝 (0 + n u p)) := tendsto_id.add tendsto_const_nhds
  rwa [zero_add] at this

theorem entry_tendsto (x : ℝ) : Tendsto (fun e : ℝ => e + x) (𝓝 0) (𝓝 x) := by
  have : Tendsto (fun e : ℝ => e + x) (𝓝 0) (𝓝 (0 + x)) := tendsto_id.add tendsto_const_nhds
  rwa [zero_add] at this

theorem plogp_tendsto (f : ℝ → ℝ) (x : ℝ) (hx : x ≠ 0) (hf : Tendsto f (𝓝 0) (𝓝 x)) :
    Tendsto (fun e => f e * Real.logb 2 (f e + e)) (𝓝 0) (𝓝 (- Real.negMulLog x / Real.log 2)) := by
  have h1 : Tendsto (fun e => f e + e) (𝓝 0) (𝓝 x) := by
    have := hf.add (tendsto_id (α := ℝ) (x := 𝓝 0))
    rwa [add_zero] at this
  have h2 := hf.mul ((h1.log hx).div_const (Real.log 2))
  have e : - Real.negMulLog x / Real.log 2 = x * (Real.log x / Real.log 2) := by
    unfold Real.negMulLog; ring
  rw [e]
  exact h2

theorem hX_tendsto (h : GoodTable A P n) :
    Tendsto (fun e => hX e A P fun u p => e + n u p) (𝓝 0) (𝓝 (entropy2 A (margX A P n))) := by
  have : entropy2 A (margX A P n) = - ∑ u ∈ A, - Real.negMulLog (margX A P n u) / Real.log 2 := by
    unfold entropy2
    rw [← Finset.sum_div, Finset.sum_neg_distrib]; ring
  rw [this]
  unfold hX
  refine (tendsto_finset_sum _ fun u hu => ?_).neg
  refine plogp_tendsto _ _ (h.margX_pos hu).ne' ?_
  exact (tendsto_finset_sum _ fun p _ => entry_tendsto _).div tot_tendsto h.tot_pos.ne'

theorem hY_tendsto (h : GoodTable A P n) :
    Tendsto (fun e => hY e A P fun u p => e + n u p) (𝓝 0) (𝓝 (entropy2 P (margY A P n))) := by
  have : entropy2 P (margY A P n) = - ∑ p ∈ P, - Real.negMulLog (margY A P n p) / Real.log 2 := by
    unfold entropy2
    rw [← Finset.sum_div, Finset.sum_neg_distrib]; ring
  rw [this]
  unfold hY
  refine (tendsto_finset_sum _ fun p hp => ?_).neg
  refine plogp_tendsto _ _ (h.margY_pos hp).ne' ?_
  exact (tendsto_finset_sum _ fun u _ => entry_tendsto _).div tot_tendsto h.tot_pos.ne'

theorem split_log (c r N : ℝ) (hc : 0 ≤ c) (hr : 0 < r) :
    c / N * Real.log (c / r) = (c * Real.log c - c * Real.log r) / N := by
  rcases hc.eq_or_lt with rfl | hc
  · simp
  · rw [Real.log_div hc.ne' hr.ne']; ring

theorem hYgX_eq (A : Finset String) (c : String → String → ℝ) :
    hYgX A P c = condEnt A P c / Real.log 2 := by
  unfold hYgX condEnt pXY pYgX tot Real.logb
  rw [neg_div, Finset.sum_div]
  congr 1
  refine Finset.sum_congr rfl fun u _ => ?_
  rw [Finset.sum_div]
  refine Finset.sum_congr rfl fun p _ => ?_
  ring

theorem hYgX_tendsto (h : GoodTable A P n) :
    Tendsto (fun e => hYgX A P fun u p => e + n u p) (𝓝[>] 0) (𝓝 (condEnt A P n / Real.log 2)) := by
  simp only [hYgX_eq]
  refine Tendsto.div_const ?_ _
  have h1 : Tendsto (fun e : ℝ => - ∑ u ∈ A, ∑ p ∈ P,
      ((e + n u p) * Real.log (e + n u p) - (e + n u p) * Real.log (∑ q ∈ P, (e + n u q))) /
        ∑ u ∈ A, ∑ p ∈ P, (e + n u p)) (𝓝 0) (𝓝 (condEnt A P n)) := by
    unfold condEnt
    refine (tendsto_finset_sum _ fun u hu => tendsto_finset_sum _ fun p hp => ?_).neg
    rw [split_log _ _ _ (h.nonneg u hu p hp) (h.row u hu)]
    refine Tendsto.div (Tendsto.sub ?_ ?_) tot_tendsto h.tot_pos.ne'
    · exact (Real.continuous_mul_log.tendsto (n u p)).comp (entry_tendsto _)
    · exact (entry_tendsto _).mul ((tendsto_finset_sum _ fun q _ => entry_tendsto _).log (h.row u hu).ne')
  refine (h1.mono_left nhdsWithin_le_nhds).congr' ?_
  filter_upwards [self_mem_nhdsWithin] with e he
  have he : 0 < e := he
  unfold condEnt
  congr 1
  refine Finset.sum_congr rfl fun u hu => Finset.sum_congr rfl fun p hp => ?_
  have hr : 0 < ∑ q ∈ P, (e + n u q) := by
    refine Finset.sum_pos (fun q hq => ?_) ⟨p, hp⟩
    have := h.nonneg u hu q hq
    linarith
  have hc := h.nonneg u hu p hp
  rw [split_log _ _ _ (by linarith) hr]
  rfl

theorem nmi_tendsto (h : GoodTable A P n) (old : Bool)
    (hd : 0 < entropy2 P (margY A P n) ∨ (old = false ∧ 0 < entropy2 A (margX A P n))) :
    Tendsto (fun e => nmiMatrix e A P (fun u p => e + n u p) old) (𝓝[>] 0) (𝓝 (nmiSpec A P n old)) := by
  have hl : 0 < Real.log 2 := Real.log_pos (by norm_num)
  have hx0 : 0 ≤ entropy2 A (margX A P n) := entropy_nonneg _ _ (fun u hu => (h.margX_pos hu).le) h.margX_sum
  have hy0 : 0 ≤ entropy2 P (margY A P n) := entropy_nonneg _ _ (fun u hu => (h.margY_pos hu).le) h.margY_sum
  have hX := (hX_tendsto h).mono_left (nhdsWithin_le_nhds (s := Set.Ioi 0))
  have hY := (hY_tendsto h).mono_left (nhdsWithin_le_nhds (s := Set.Ioi 0))
  have hC := hYgX_tendsto h
  have hmi : mutualInfo A P n = entropy2 P (margY A P n) - condEnt A P n / Real.log 2 := by
    have := mutualInfo_eq h
    unfold entropy2
    field_simp
    exact this
  unfold nmiMatrix nmiSpec
  rw [hmi]
  cases old with
  | true =>
    simp only [if_true]
    refine ((hY.sub hC).const_mul 100).div hY ?_
    exact (hd.resolve_right (by simp)).ne'
  | false =>
    simp only [Bool.false_eq_true, if_false]
    have hne : 0 < entropy2 P (margY A P n) + entropy2 A (margX A P n) := by
      rcases hd with hd | hd
      · linarith
      · have := hd.2; linarith
    have := ((hY.sub hC).const_mul 200).div (hY.add hX) hne.ne'
    have e : 100 * (entropy2 P (margY A P n) - condEnt A P n / Real.log 2) /
        ((entropy2 A (margX A P n) + entropy2 P (margY A P n)) / 2) =
        200 * (entropy2 P (margY A P n) - condEnt A P n / Real.log 2) /
          (entropy2 P (margY A P n) + entropy2 A (margX A P n)) := by
      rw [div_div_eq_mul_div, add_comm (entropy2 A _)]
      congr 1
      ring
    rw [e]
    exact this

theorem nmiSpec_range (h : GoodTable A P n) (old : Bool)
    (hd : 0 < entropy2 P (margY A P n) ∨ (old = false ∧ 0 < entropy2 A (margX A P n))) :
    0 ≤ nmiSpec A P n old ∧ nmiSpec A P n old ≤ 100 ∧ (nmiSpec A P n old = 0 ↔ Indep A P n) ∧
      (nmiSpec A P n old = 100 ↔ Determines A P n ∧ (old = true ∨ Determined A P n)) := by
  have hx0 : 0 ≤ entropy2 A (margX A P n) := entropy_nonneg _ _ (fun u hu => (h.margX_pos hu).le) h.margX_sum
  have hy0 : 0 ≤ entropy2 P (margY A P n) := entropy_nonneg _ _ (fun u hu => (h.margY_pos hu).le) h.margY_sum
  obtain ⟨hm0, hmi⟩ := mutualInfo_nonneg h
  obtain ⟨hmy, hye⟩ := mutualInfo_le h
  obtain ⟨hmx, hxe⟩ := mutualInfo_le h.swap
  rw [← mutualInfo_swap A P n] at hmx hxe
  have hmargs : margY P A (fun p u => n u p) = margX A P n := by
    funext u; unfold margX margY; rw [tot_comm A]
  rw [hmargs] at hmx hxe
  have hdet : Determines P A (fun p u => n u p) ↔ Determined A P n := Iff.rfl
  unfold nmiSpec
  cases old with
  | true =>
    have hd := hd.resolve_right (by simp)
    simp only [if_true, true_or, and_true]
    refine ⟨by positivity, ?_, ?_, ?_⟩
    · rw [div_le_iff₀ hd]; linarith
    · rw [div_eq_zero_iff, or_iff_left hd.ne', mul_eq_zero, or_iff_right (by norm_num), hmi]
    · rw [div_eq_iff hd.ne', ← hye]
      constructor <;> intro <;> linarith
  | false =>
    have hd : 0 < (entropy2 A (margX A P n) + entropy2 P (margY A P n)) / 2 := by
      rcases hd with hd | hd
      · linarith
      · have := hd.2; linarith
    simp only [Bool.false_eq_true, if_false, false_or]
    refine ⟨by positivity, ?_, ?_, ?_⟩
    · rw [div_le_iff₀ hd]; linarith
    · rw [div_eq_zero_iff, or_iff_left hd.ne', mul_eq_zero, or_iff_right (by norm_num), hmi]
    · rw [div_eq_iff hd.ne', ← hye, ← hdet, ← hxe]
      constructor
      · intro h1; constructor <;> linarith
      · rintro ⟨h1, h2⟩; rw [← h1, ← h2]; ring

end limit

/-- The divisor of the normalised mutual information is not zero. -/
theorem nmi_divisor {A P : Finset String} {n : String → String → ℝ} (h : GoodTable A P n) (old : Bool)
    (hd : 2 ≤ P.card ∨ (old = false ∧ 2 ≤ A.card)) :
    0 < entropy2 P (margY A P n) ∨ (old = false ∧ 0 < entropy2 A (margX A P n)) := by
  rcases hd with hd | ⟨ho, hd⟩
  · exact Or.inl (entropy_pos _ _ (fun p hp => h.margY_pos hp) h.margY_sum hd)
  · exact Or.inr ⟨ho, entropy_pos _ _ (fun p hp => h.margX_pos hp) h.margX_sum hd⟩

/-! ## The smoothing constant -/

theorem plog_smooth (p e : ℝ) (hp : 0 < p) (he : 0 ≤ e) :
    p * Real.log p ≤ p * Real.log (p + e) ∧ p * Real.log (p + e) ≤ p * Real.log p + e := by
  constructor
  · exact mul_le_mul_of_nonneg_left (Real.log_le_log hp (by linarith)) hp.le
  · have h1 := Real.log_le_sub_one_of_pos (show 0 < (p + e) / p by positivity)
    rw [Real.log_div (by positivity) hp.ne'] at h1
    have h2 := mul_le_mul_of_nonneg_left h1 hp.le
    have h3 : p * ((p + e) / p - 1) = e := by field_simp; ring
    rw [h3] at h2
    linarith

theorem ent_smooth (S : Finset ι) (p : ι → ℝ) (e : ℝ) (he : 0 ≤ e) (hp : ∀ i ∈ S, 0 < p i) :
    entropy2 S p - S.card * e / Real.log 2 ≤ - ∑ i ∈ S, p i * Real.logb 2 (p i + e) ∧
      - ∑ i ∈ S, p i * Real.logb 2 (p i + e) ≤ entropy2 S p := by
  have hl : 0 < Real.log 2 := Real.log_pos (by norm_num)
  have h1 : ∑ i ∈ S, p i * Real.logb 2 (p i + e) = (∑ i ∈ S, p i * Real.log (p i + e)) / Real.log 2 := by
    unfold Real.logb
    rw [Finset.sum_div]
    exact Finset.sum_congr rfl fun i _ => by ring
  have h2 : ∑ i ∈ S, p i * Real.log (p i) ≤ ∑ i ∈ S, p i * Real.log (p i + e) :=
    Finset.sum_le_sum fun i hi => (plog_smooth _ e (hp i hi) he).1
  have h3 : ∑ i ∈ S, p i * Real.log (p i + e) ≤ ∑ i ∈ S, p i * Real.log (p i) + S.card * e := by
    rw [← nsmul_eq_mul, ← Finset.sum_const, ← Finset.sum_add_distrib]
    exact Finset.sum_le_sum fun i hi => (plog_smooth _ e (hp i hi) he).2
  have h4 : ∑ i ∈ S, Real.negMulLog (p i) = - ∑ i ∈ S, p i * Real.log (p i) := by
    unfold Real.negMulLog
    rw [← Finset.sum_neg_distrib]
    exact Finset.sum_congr rfl fun i _ => by ring
  rw [h1]
  unfold entropy2
  rw [h4, ← sub_div, ← neg_div, div_le_div_iff_of_pos_right hl, div_le_div_iff_of_pos_right hl]
  constructor <;> linarith

theorem hY_pos {A P : Finset String} {n : String → String → ℝ} (h : GoodTable A P n) (e : ℝ) (he : 0 < e)
    (hd : 2 ≤ P.card) (hc : ∀ p ∈ P, e * tot A P n < ∑ u ∈ A, n u p) : 0 < hY e A P n := by
  unfold hY
  rw [neg_pos, ← neg_pos, ← Finset.sum_neg_distrib]
  refine Finset.sum_pos (fun p hp => ?_) (Finset.card_pos.1 (by omega))
  have h0 : 0 < pY A P n p := h.margY_pos hp
  have hN := h.tot_pos
  obtain ⟨q, hq, hne⟩ := Finset.exists_mem_ne (by omega : 1 < P.card) p
  have h1 : pY A P n p + e < 1 := by
    have h2 : pY A P n p + pY A P n q ≤ 1 := by
      change margY A P n p + margY A P n q ≤ 1
      rw [← h.margY_sum, ← Finset.sum_pair (f := margY A P n) (Ne.symm hne)]
      refine Finset.sum_le_sum_of_subset_of_nonneg ?_ fun r hr _ => (h.margY_pos hr).le
      intro r hr
      simp only [Finset.mem_insert, Finset.mem_singleton] at hr
      rcases hr with rfl | rfl <;> assumption
    have h3 : e < pY A P n q := by
      change e < (∑ u ∈ A, n u q) / tot A P n
      exact (lt_div_iff₀ hN).2 (hc q hq)
    linarith
  have h2 : Real.logb 2 (pY A P n p + e) < 0 := Real.logb_neg (by norm_num) (by linarith) h1
  nlinarith

/-- The counts written by `maxoverlap_mapping.py` are valid. -/
theorem foldl_bump_valid (ps : List (String × String)) (c : Counts) (h : ValidCounts c) :
    ValidCounts (ps.foldl (fun c x => bump c x.2 x.1) c) := by
  induction ps generalizing c with
  | nil => exact h
  | cons x ps ih =>
    refine ih _ ?_
    have hi := bump_inv c x.2 x.1 ⟨h.outer, h.inner⟩
    refine ⟨hi.1, hi.2, ?_⟩
    intro y hy z hz
    unfold bump at hy
    have hg : ∀ z ∈ getOr c x.2 [], 0 < z.2 := by
      intro z hz
      rw [getOr_lookup] at hz
      cases hl : c.lookup x.2 with
      | none => rw [hl] at hz; simp at hz
      | some l =>
        rw [hl] at hz
        exact h.pos (x.2, l) (lookup_mem c x.2 l hl) z hz
    rcases dictSet_mem _ _ _ _ hy with hy | rfl
    · exact h.pos y hy z hz
    · rcases dictSet_mem _ _ _ _ hz with hz | rfl
      · exact hg z hz
      · simp

/-! ## Dictionaries as functions on their keys -/

theorem dict_sum {β : Type} [Inhabited β] (d : List (String × β)) (hn : (d.map Prod.fst).Nodup)
    (f : String → β → ℝ) :
    (d.map fun p => f p.1 p.2).sum = ∑ k ∈ (d.map Prod.fst).toFinset, f k ((d.lookup k).getD default) := by
  rw [List.sum_toFinset _ hn, List.map_map]
  congr 1
  refine List.map_congr_left fun p hp => ?_
  simp only [Function.comp]
  rw [lookup_of_mem d hn p.1 p.2 hp]
  rfl

/-! ## `entropy_rate.py` -/

/-- `d[t] += 1` for all the tokens. -/
def countAll (ts : List String) (d : List (String × ℕ)) : List (String × ℕ) :=
  ts.foldl (fun d t => dictSet d t (getOr d t 0 + 1)) d

theorem countAll_lookup (ts : List String) (d : List (String × ℕ)) (x : String) :
    ((countAll ts d).lookup x).getD 0 = (d.lookup x).getD 0 + ts.count x := by
  induction ts generalizing d with
  | nil => simp [countAll]
  | cons t ts ih =>
    have : countAll (t :: ts) d = countAll ts (dictSet d t (getOr d t 0 + 1)) := rfl
    rw [this, ih, lookup_dictSet, getOr_lookup, List.count_cons]
    by_cases hx : x = t
    · subst hx; simp; omega
    · have : (t == x) = false := by simpa using Ne.symm hx
      simp [hx, this]

theorem countAll_keys (ts : List String) (d : List (String × ℕ)) (x : String) :
    x ∈ (countAll ts d).map Prod.fst ↔ x ∈ d.map Prod.fst ∨ x ∈ ts := by
  induction ts generalizing d with
  | nil => simp [countAll]
  | cons t ts ih =>
    have : countAll (t :: ts) d = countAll ts (dictSet d t (getOr d t 0 + 1)) := rfl
    rw [this, ih, ← not_iff_not]
    push Not
    rw [← lookup_none, lookup_dictSet, ← lookup_none, List.mem_cons]
    by_cases hx : x = t
    · simp [hx]
    · simp [hx]

theorem countAll_nodup (ts : List String) (d : List (String × ℕ)) (hd : (d.map Prod.fst).Nodup) :
    ((countAll ts d).map Prod.fst).Nodup := by
  induction ts generalizing d with
  | nil => exact hd
  | cons t ts ih => exact ih _ (dictSet_nodup _ _ _ hd)

theorem tokenCounts_eq (tr : Transcript) : tokenCounts tr = countAll (tr.flatMap Prod.snd) [] := by
  unfold tokenCounts countAll
  rw [List.foldl_flatMap]

theorem countAll_finset (ts : List String) : ((countAll ts []).map Prod.fst).toFinset = ts.toFinset := by
  ext x
  rw [List.mem_toFinset, List.mem_toFinset, countAll_keys]
  simp

theorem freq_sum (ts : List String) (h : ts ≠ []) : ∑ t ∈ ts.toFinset, freq ts t = 1 := by
  unfold freq
  rw [← Finset.sum_div, ← Nat.cast_sum, List.sum_toFinset_count_eq_length]
  have : (ts.length : ℝ) ≠ 0 := by simpa using h
  exact div_self this

theorem freq_pos (ts : List String) (t : String) (h : t ∈ ts) : 0 < freq ts t := by
  unfold freq
  have h1 : 0 < ts.count t := List.count_pos_iff.2 h
  have h2 : 0 < ts.length := List.length_pos_of_mem h
  positivity

theorem entropyRate_eq (tr : Transcript) :
    entropyRate tr = entropy2 (tr.flatMap Prod.snd).toFinset (freq (tr.flatMap Prod.snd)) := by
  unfold entropyRate entropy2
  simp only
  rw [tokenCounts_eq]
  generalize tr.flatMap Prod.snd = ts
  have hn := countAll_nodup ts [] (by simp)
  have hv : ∀ x, ((countAll ts []).lookup x).getD default = ts.count x := fun x => by
    have := countAll_lookup ts [] x
    simpa using this
  have hsum : ((countAll ts []).map fun p => (p.2 : ℝ)).sum = ts.length := by
    rw [dict_sum _ hn fun _ v => (v : ℝ), countAll_finset]
    simp only [hv]
    rw [← Nat.cast_sum, List.sum_toFinset_count_eq_length]
  rw [hsum, List.map_map, List.map_map]
  have := dict_sum (countAll ts []) hn fun _ v => (v : ℝ) / ts.length * Real.logb 2 ((v : ℝ) / ts.length)
  rw [countAll_finset] at this
  simp only [hv] at this
  have e : (((fun x : ℝ => x * Real.logb 2 x) ∘ fun x => x / (ts.length : ℝ)) ∘ fun p : String × ℕ => (p.2 : ℝ)) =
      fun p : String × ℕ => (p.2 : ℝ) / ts.length * Real.logb 2 ((p.2 : ℝ) / ts.length) := rfl
  rw [e, this, Finset.sum_div, ← Finset.sum_neg_distrib]
  refine Finset.sum_congr rfl fun t _ => ?_
  unfold Real.negMulLog freq Real.logb
  ring

theorem dictSet_map {β γ : Type} (d : List (String × β)) (f : β → γ) (k : String) (v : β) :
    dictSet (d.map fun p => (p.1, f p.2)) k (f v) = (dictSet d k v).map fun p => (p.1, f p.2) := by
  unfold dictSet
  have : (d.map fun p => (p.1, f p.2)).map Prod.fst = d.map Prod.fst := by
    rw [List.map_map]; rfl
  rw [this]
  split
  · rw [List.map_map, List.map_map]
    refine List.map_congr_left fun p _ => ?_
    simp only [Function.comp]
    split <;> rfl
  · simp

theorem loadMerged_loadTranscript (lines : List (List String)) (d : Transcript) :
    loadMerged lines (d.map fun p => (p.1, collapse p.2)) =
      (loadTranscript lines d).map fun tr => tr.map fun p => (p.1, collapse p.2) := by
  induction lines generalizing d with
  | nil => rfl
  | cons l lines ih =>
    cases l with
    | nil => rfl
    | cons u ts =>
      rw [loadMerged, loadTranscript, dictSet_map d collapse, ih]

end Verif.Eval
