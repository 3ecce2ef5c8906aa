import Verif.Model.Scoring
import Verif.Spec.Scoring
import Mathlib.Data.List.Perm.Subperm
import Mathlib.Tactic.Linarith
import Mathlib.Tactic.NormNum

/-! # Lemmas on the scoring scripts -/

namespace Verif.Scoring

open Verif.Spec

variable {α : Type}

/-! ## Filling of a table -/

theorem foldl_row (f : (ℕ → ℕ → ℕ) → ℕ → ℕ → ℕ) (i n : ℕ) (d : ℕ → ℕ → ℕ) (D : ℕ → ℕ → ℕ)
    (hprev : ∀ j ≤ n, d i j = D i j) (h0 : d (i + 1) 0 = D (i + 1) 0)
    (hf : ∀ (t : ℕ → ℕ → ℕ) (j : ℕ), j < n → t i j = D i j → t i (j + 1) = D i (j + 1) →
      t (i + 1) j = D (i + 1) j → f t (i + 1) (j + 1) = D (i + 1) (j + 1)) :
    ∀ k ≤ n,
      (∀ i' j', i' ≠ i + 1 → ((List.range k).foldl
        (fun d j => setCell d (i + 1) (j + 1) (f d (i + 1) (j + 1))) d) i' j' = d i' j') ∧
      (((List.range k).foldl
        (fun d j => setCell d (i + 1) (j + 1) (f d (i + 1) (j + 1))) d) (i + 1) 0 = D (i + 1) 0) ∧
      (∀ j ≤ k, ((List.range k).foldl
        (fun d j => setCell d (i + 1) (j + 1) (f d (i + 1) (j + 1))) d) (i + 1) j = D (i + 1) j) := by
  intro k
  induction k with
  | zero =>
    intro _
    refine ⟨fun _ _ _ => rfl, h0, fun j hj => ?_⟩
    obtain rfl : j = 0 := by omega
    exact h0
  | succ k ih =>
    intro hk
    obtain ⟨h1, h2, h3⟩ := ih (by omega)
    rw [List.range_succ, List.foldl_append, List.foldl_cons, List.foldl_nil]
    generalize hE : (List.range k).foldl
        (fun d j => setCell d (i + 1) (j + 1) (f d (i + 1) (j + 1))) d = E at h1 h2 h3 ⊢
    refine ⟨fun i' j' hi' => ?_, ?_, fun j hj => ?_⟩
    · rw [setCell, if_neg (by omega)]
      exact h1 i' j' hi'
    · rw [setCell, if_neg (by omega)]
      exact h2
    · unfold setCell
      by_cases hjk : j = k + 1
      · subst hjk
        rw [if_pos ⟨rfl, rfl⟩]
        apply hf E k (by omega)
        · rw [h1 i k (by omega)]; exact hprev k (by omega)
        · rw [h1 i (k + 1) (by omega)]; exact hprev (k + 1) (by omega)
        · exact h3 k le_rfl
      · rw [if_neg (by omega)]
        exact h3 j (by omega)

/-- Any table with the right borders that satisfies the recurrence is the one computed by the loops. -/
theorem fill_eq (f : (ℕ → ℕ → ℕ) → ℕ → ℕ → ℕ) (m n : ℕ) (d D : ℕ → ℕ → ℕ)
    (hrow : ∀ j ≤ n, d 0 j = D 0 j) (hcol : ∀ i ≤ m, d i 0 = D i 0)
    (hf : ∀ (t : ℕ → ℕ → ℕ) (i j : ℕ), i < m → j < n → t i j = D i j → t i (j + 1) = D i (j + 1) →
      t (i + 1) j = D (i + 1) j → f t (i + 1) (j + 1) = D (i + 1) (j + 1)) :
    ∀ i ≤ m, ∀ j ≤ n, fill f m n d i j = D i j := by
  have key : ∀ k ≤ m,
      (∀ i ≤ m, k < i → fill f k n d i 0 = D i 0) ∧
      (∀ i ≤ k, ∀ j ≤ n, fill f k n d i j = D i j) := by
    intro k
    induction k with
    | zero =>
      intro _
      refine ⟨fun i hi _ => hcol i hi, fun i hi j hj => ?_⟩
      obtain rfl : i = 0 := by omega
      exact hrow j hj
    | succ k ih =>
      intro hk
      obtain ⟨h1, h2⟩ := ih (by omega)
      have hstep : fill f (k + 1) n d = (List.range n).foldl
          (fun d j => setCell d (k + 1) (j + 1) (f d (k + 1) (j + 1))) (fill f k n d) := by
        unfold fill
        rw [List.range_succ, List.foldl_append, List.foldl_cons, List.foldl_nil]
      obtain ⟨r1, r2, r3⟩ := foldl_row f k n (fill f k n d) D (fun j hj => h2 k le_rfl j hj)
        (h1 (k + 1) hk (by omega))
        (fun t j hj => hf t k j (by omega) hj) n le_rfl
      rw [hstep]
      refine ⟨fun i hi hki => ?_, fun i hi j hj => ?_⟩
      · rw [r1 i 0 (by omega)]
        exact h1 i hi (by omega)
      · by_cases hik : i = k + 1
        · subst hik; exact r3 j hj
        · rw [r1 i j hik]; exact h2 i (by omega) j hj
  exact (key m le_rfl).2

/-! ## Initialisations -/

theorem terInit_inner (i n : ℕ) (d : ℕ → ℕ → ℕ) (i' j' : ℕ) :
    (List.range n).foldl (fun d j =>
      if i = 0 then setCell d 0 j j else if j = 0 then setCell d i 0 i else d) d i' j'
      = if i = 0 ∧ i' = 0 ∧ j' < n then j'
        else if i ≠ 0 ∧ i' = i ∧ j' = 0 ∧ 0 < n then i else d i' j' := by
  induction n with
  | zero => simp
  | succ n ih =>
    rw [List.range_succ, List.foldl_append, List.foldl_cons, List.foldl_nil]
    by_cases hi : i = 0
    · subst hi
      simp only [if_true, setCell, true_and, ne_eq, not_true_eq_false, false_and, if_false] at ih ⊢
      rw [ih]
      split_ifs <;> omega
    · simp only [hi, if_false, false_and, ne_eq, not_false_eq_true, true_and] at ih ⊢
      by_cases hn : n = 0
      · subst hn
        simp only [if_true, setCell, List.range_zero, List.foldl_nil]
        split_ifs <;> first | rfl | omega
      · simp only [hn, if_false, ih]
        split_ifs <;> first | rfl | omega

theorem terInit_eq (m n : ℕ) : ∀ i ≤ m, ∀ j ≤ n,
    terInit m n i j = if i = 0 then j else if j = 0 then i else 0 := by
  have key : ∀ (k i' j' : ℕ), (List.range k).foldl (fun d i =>
      (List.range (n + 1)).foldl (fun d j =>
        if i = 0 then setCell d 0 j j else if j = 0 then setCell d i 0 i else d) d) (fun _ _ => 0) i' j'
      = if i' < k ∧ j' ≤ n then (if i' = 0 then j' else if j' = 0 then i' else 0) else 0 := by
    intro k
    induction k with
    | zero => intro i' j'; simp
    | succ k ih =>
      intro i' j'
      rw [List.range_succ (n := k), List.foldl_append, List.foldl_cons, List.foldl_nil, terInit_inner, ih]
      split_ifs <;> omega
  intro i hi j hj
  rw [terInit, key, if_pos ⟨by omega, hj⟩]

theorem timitInit_eq (m n : ℕ) : ∀ i ≤ m, ∀ j ≤ n,
    timitInit m n i j = if i = 0 then j else if j = 0 then i else 0 := by
  have k1 : ∀ (k i' j' : ℕ), (List.range k).foldl (fun d i => setCell d i 0 i)
      (fun _ _ => 0) i' j' = if i' < k ∧ j' = 0 then i' else 0 := by
    intro k
    induction k with
    | zero => intro i' j'; simp
    | succ k ih =>
      intro i' j'
      rw [List.range_succ, List.foldl_append, List.foldl_cons, List.foldl_nil, setCell, ih]
      split_ifs <;> omega
  have k2 : ∀ (d : ℕ → ℕ → ℕ) (k i' j' : ℕ), (List.range k).foldl (fun d j => setCell d 0 j j)
      d i' j' = if j' < k ∧ i' = 0 then j' else d i' j' := by
    intro d k
    induction k with
    | zero => intro i' j'; simp
    | succ k ih =>
      intro i' j'
      rw [List.range_succ, List.foldl_append, List.foldl_cons, List.foldl_nil, setCell, ih]
      split_ifs <;> first | rfl | omega
  intro i hi j hj
  rw [timitInit, k2, k1]
  split_ifs <;> omega

/-! ## The recurrence -/

/-- Distance of two sequences by recursion on the first elements. -/
def lev [DecidableEq α] : List α → List α → ℕ
  | [], b => b.length
  | x :: a, [] => (x :: a).length
  | x :: a, y :: b =>
    if x = y then lev a b
    else min (min (lev a b + 1) (lev (x :: a) b + 1)) (lev a (y :: b) + 1)
termination_by a b => a.length + b.length

section
variable [DecidableEq α]

theorem lev_nil_left (b : List α) : lev [] b = b.length := by rw [lev]

theorem lev_nil_right (a : List α) : lev a [] = a.length := by
  cases a with
  | nil => rw [lev]
  | cons x a => rw [lev]

theorem lev_cons (x y : α) (a b : List α) : lev (x :: a) (y :: b) =
    if x = y then lev a b
    else min (min (lev a b + 1) (lev (x :: a) b + 1)) (lev a (y :: b) + 1) := by
  rw [lev]

theorem lev_lipschitz : ∀ (N : ℕ) (a b : List α), a.length + b.length ≤ N →
    (∀ x, lev (x :: a) b ≤ lev a b + 1) ∧ (∀ y, lev a (y :: b) ≤ lev a b + 1) ∧
    (∀ x, lev a b ≤ lev (x :: a) b + 1) ∧ (∀ y, lev a b ≤ lev a (y :: b) + 1) := by
  intro N
  induction N with
  | zero =>
    intro a b h
    have ha : a = [] := List.length_eq_zero_iff.mp (by omega)
    have hb : b = [] := List.length_eq_zero_iff.mp (by omega)
    subst ha; subst hb
    simp [lev_nil_left, lev_nil_right]
  | succ N ih =>
    intro a b h
    -- the two upper bounds
    have up1 : ∀ x, lev (x :: a) b ≤ lev a b + 1 := by
      intro x
      cases b with
      | nil => simp [lev_nil_right]
      | cons y b =>
        rw [lev_cons]
        split_ifs with hxy
        · have := (ih a b (by simp only [List.length_cons] at h; omega)).2.2.2 y
          omega
        · omega
    have up2 : ∀ y, lev a (y :: b) ≤ lev a b + 1 := by
      intro y
      cases a with
      | nil => simp [lev_nil_left]
      | cons x a =>
        rw [lev_cons]
        split_ifs with hxy
        · have := (ih a b (by simp only [List.length_cons] at h; omega)).2.2.1 x
          omega
        · omega
    refine ⟨up1, up2, ?_, ?_⟩
    · intro x
      cases b with
      | nil => simp only [lev_nil_right, List.length_cons]; omega
      | cons y b =>
        have hl : a.length + b.length ≤ N := by simp only [List.length_cons] at h; omega
        obtain ⟨i1, i2, i3, i4⟩ := ih a b hl
        rw [lev_cons]
        have := i2 y
        have := i3 x
        split_ifs with hxy
        · omega
        · omega
    · intro y
      cases a with
      | nil => simp only [lev_nil_left, List.length_cons]; omega
      | cons x a =>
        have hl : a.length + b.length ≤ N := by simp only [List.length_cons] at h; omega
        obtain ⟨i1, i2, i3, i4⟩ := ih a b hl
        rw [lev_cons]
        have := i1 x
        have := i4 y
        split_ifs with hxy
        · omega
        · omega

theorem lev_three_way (x y : α) (a b : List α) : lev (x :: a) (y :: b) =
    min (min (lev (x :: a) b + 1) (lev a (y :: b) + 1)) (lev a b + if x ≠ y then 1 else 0) := by
  obtain ⟨i1, i2, i3, i4⟩ := lev_lipschitz _ a b le_rfl
  have h1 := i3 x
  have h2 := i4 y
  rw [lev_cons]
  by_cases hxy : x = y
  · simp only [hxy, if_true, ne_eq, not_true_eq_false, if_false, add_zero]
    subst hxy
    omega
  · simp only [hxy, if_false, ne_eq, not_false_eq_true, if_true]
    omega

/-! ## Alignments -/
end

/-- Alignments, built from the left. -/
inductive Align : ℕ → List α → List α → Prop
  | nil : Align 0 [] []
  | same {n a b} (x : α) : Align n a b → Align n (x :: a) (x :: b)
  | sub {n a b} (x y : α) : Align n a b → Align (n + 1) (x :: a) (y :: b)
  | ins {n a b} (y : α) : Align n a b → Align (n + 1) a (y :: b)
  | del {n a b} (x : α) : Align n a b → Align (n + 1) (x :: a) b

theorem Align.refl (a : List α) : Align 0 a a := by
  induction a with
  | nil => exact .nil
  | cons x a ih => exact .same x ih

theorem Align.insert {n : ℕ} {a c : List α} (h : Align n a c) (x : α) :
    ∀ p s, a = p ++ s → Align (n + 1) (p ++ x :: s) c := by
  induction h with
  | nil =>
    intro p s h
    have := List.append_eq_nil_iff.mp h.symm
    rw [this.1, this.2]
    exact .del x .nil
  | same y h ih =>
    intro p s hp
    cases p with
    | nil => rw [List.nil_append] at hp; subst hp; exact .del x (.same y h)
    | cons z p =>
      obtain ⟨rfl, rfl⟩ := List.cons.inj hp
      exact .same _ (ih p s rfl)
  | sub y y' h ih =>
    intro p s hp
    cases p with
    | nil => rw [List.nil_append] at hp; subst hp; exact .del x (.sub y y' h)
    | cons z p =>
      obtain ⟨rfl, rfl⟩ := List.cons.inj hp
      exact .sub _ _ (ih p s rfl)
  | ins y h ih =>
    intro p s hp
    exact .ins y (ih p s hp)
  | del y h ih =>
    intro p s hp
    cases p with
    | nil => rw [List.nil_append] at hp; subst hp; exact .del x (.del y h)
    | cons z p =>
      obtain ⟨rfl, rfl⟩ := List.cons.inj hp
      exact .del _ (ih p s rfl)

theorem Align.delete {n : ℕ} {a c : List α} (h : Align n a c) (x : α) :
    ∀ p s, a = p ++ x :: s → ∃ k ≤ n + 1, Align k (p ++ s) c := by
  induction h with
  | nil => intro p s h; simp at h
  | @same n a b y h ih =>
    intro p s hp
    cases p with
    | nil =>
      obtain ⟨rfl, rfl⟩ := List.cons.inj hp
      exact ⟨n + 1, le_rfl, .ins _ h⟩
    | cons z p =>
      obtain ⟨rfl, rfl⟩ := List.cons.inj hp
      obtain ⟨k, hk, hA⟩ := ih p s rfl
      exact ⟨k, hk, .same _ hA⟩
  | @sub n a b y y' h ih =>
    intro p s hp
    cases p with
    | nil =>
      obtain ⟨rfl, rfl⟩ := List.cons.inj hp
      exact ⟨n + 1, by omega, .ins _ h⟩
    | cons z p =>
      obtain ⟨rfl, rfl⟩ := List.cons.inj hp
      obtain ⟨k, hk, hA⟩ := ih p s rfl
      exact ⟨k + 1, by omega, .sub _ _ hA⟩
  | @ins n a b y h ih =>
    intro p s hp
    obtain ⟨k, hk, hA⟩ := ih p s hp
    exact ⟨k + 1, by omega, .ins y hA⟩
  | @del n a b y h ih =>
    intro p s hp
    cases p with
    | nil =>
      obtain ⟨rfl, rfl⟩ := List.cons.inj hp
      exact ⟨n, by omega, h⟩
    | cons z p =>
      obtain ⟨rfl, rfl⟩ := List.cons.inj hp
      obtain ⟨k, hk, hA⟩ := ih p s rfl
      exact ⟨k + 1, by omega, .del _ hA⟩

theorem Align.subst {n : ℕ} {a c : List α} (h : Align n a c) (x y : α) :
    ∀ p s, a = p ++ y :: s → ∃ k ≤ n + 1, Align k (p ++ x :: s) c := by
  induction h with
  | nil => intro p s h; simp at h
  | @same n a b z h ih =>
    intro p s hp
    cases p with
    | nil =>
      obtain ⟨rfl, rfl⟩ := List.cons.inj hp
      exact ⟨n + 1, le_rfl, .sub _ _ h⟩
    | cons z p =>
      obtain ⟨rfl, rfl⟩ := List.cons.inj hp
      obtain ⟨k, hk, hA⟩ := ih p s rfl
      exact ⟨k, hk, .same _ hA⟩
  | @sub n a b z z' h ih =>
    intro p s hp
    cases p with
    | nil =>
      obtain ⟨rfl, rfl⟩ := List.cons.inj hp
      exact ⟨n + 1, by omega, .sub _ _ h⟩
    | cons z p =>
      obtain ⟨rfl, rfl⟩ := List.cons.inj hp
      obtain ⟨k, hk, hA⟩ := ih p s rfl
      exact ⟨k + 1, by omega, .sub _ _ hA⟩
  | @ins n a b z h ih =>
    intro p s hp
    obtain ⟨k, hk, hA⟩ := ih p s hp
    exact ⟨k + 1, by omega, .ins z hA⟩
  | @del n a b z h ih =>
    intro p s hp
    cases p with
    | nil =>
      obtain ⟨rfl, rfl⟩ := List.cons.inj hp
      exact ⟨n + 1, by omega, .del _ h⟩
    | cons z p =>
      obtain ⟨rfl, rfl⟩ := List.cons.inj hp
      obtain ⟨k, hk, hA⟩ := ih p s rfl
      exact ⟨k + 1, by omega, .del _ hA⟩

theorem Align.of_edits {n : ℕ} {a b : List α} (h : Edits n a b) : ∃ k ≤ n, Align k a b := by
  induction h with
  | refl a => exact ⟨0, le_rfl, .refl a⟩
  | @step n a b c he _ ih =>
    obtain ⟨k, hk, hA⟩ := ih
    cases he with
    | insertion p s x =>
      obtain ⟨k', hk', hA'⟩ := hA.delete x p s rfl
      exact ⟨k', by omega, hA'⟩
    | deletion p s x => exact ⟨k + 1, by omega, hA.insert x p s rfl⟩
    | substitution p s x y =>
      obtain ⟨k', hk', hA'⟩ := hA.subst x y p s rfl
      exact ⟨k', by omega, hA'⟩

/-! ## Edits -/

theorem edit_cons {a b : List α} (x : α) (h : Edit a b) : Edit (x :: a) (x :: b) := by
  cases h with
  | insertion p s y => exact Edit.insertion (x :: p) s y
  | deletion p s y => exact Edit.deletion (x :: p) s y
  | substitution p s y z => exact Edit.substitution (x :: p) s y z

theorem edits_cons {n : ℕ} {a b : List α} (x : α) (h : Edits n a b) : Edits n (x :: a) (x :: b) := by
  induction h with
  | refl a => exact .refl _
  | step he _ ih => exact .step (edit_cons x he) ih

theorem edit_reverse {a b : List α} (h : Edit a b) : Edit a.reverse b.reverse := by
  cases h with
  | insertion p s y => simpa using Edit.insertion s.reverse p.reverse y
  | deletion p s y => simpa using Edit.deletion s.reverse p.reverse y
  | substitution p s y z => simpa using Edit.substitution s.reverse p.reverse y z

theorem edits_reverse {n : ℕ} {a b : List α} (h : Edits n a b) : Edits n a.reverse b.reverse := by
  induction h with
  | refl a => exact .refl _
  | step he _ ih => exact .step (edit_reverse he) ih

theorem edit_symm {a b : List α} (h : Edit a b) : Edit b a := by
  cases h with
  | insertion p s y => exact Edit.deletion p s y
  | deletion p s y => exact Edit.insertion p s y
  | substitution p s y z => exact Edit.substitution p s z y

theorem edits_trans {n m : ℕ} {a b c : List α} (h : Edits n a b) (h' : Edits m b c) :
    Edits (n + m) a c := by
  induction h with
  | refl a => simpa using h'
  | @step n a b c he _ ih =>
    have := Edits.step he (ih h')
    rwa [show n + m + 1 = n + 1 + m by omega] at this

theorem edits_symm {n : ℕ} {a b : List α} (h : Edits n a b) : Edits n b a := by
  induction h with
  | refl a => exact .refl _
  | @step n a b c he _ ih => exact edits_trans ih (.step (edit_symm he) (.refl _))

theorem edits_nil_left (b : List α) : Edits b.length [] b := by
  induction b with
  | nil => exact .refl _
  | cons x b ih => exact .step (Edit.insertion [] [] x) (edits_cons x ih)

theorem edits_zero {a b : List α} (h : Edits 0 a b) : a = b := by
  cases h; rfl

theorem edits_length {n : ℕ} {a b : List α} (h : Edits n a b) : a.length ≤ b.length + n := by
  induction h with
  | refl a => simp
  | step he _ ih =>
    cases he <;> simp only [List.length_append, List.length_cons] at ih ⊢ <;> omega

section
variable [DecidableEq α]

theorem lev_le_align {n : ℕ} {a b : List α} (h : Align n a b) : lev a b ≤ n := by
  induction h with
  | nil => simp [lev_nil_left]
  | same x h ih => rw [lev_cons, if_pos rfl]; exact ih
  | @sub n a b x y h ih =>
    have := (lev_three_way x y a b)
    split_ifs at this <;> omega
  | @ins n a b y h ih => have := (lev_lipschitz _ a b le_rfl).2.1 y; omega
  | @del n a b x h ih => have := (lev_lipschitz _ a b le_rfl).1 x; omega

theorem edits_lev : ∀ (N : ℕ) (a b : List α), a.length + b.length ≤ N → Edits (lev a b) a b := by
  intro N
  induction N with
  | zero =>
    intro a b h
    have ha : a = [] := List.length_eq_zero_iff.mp (by omega)
    have hb : b = [] := List.length_eq_zero_iff.mp (by omega)
    subst ha; subst hb
    rw [lev_nil_left]; exact .refl _
  | succ N ih =>
    intro a b h
    cases a with
    | nil => rw [lev_nil_left]; exact edits_nil_left b
    | cons x a =>
      cases b with
      | nil => rw [lev_nil_right]; exact edits_symm (edits_nil_left _)
      | cons y b =>
        simp only [List.length_cons] at h
        have e1 := ih a b (by omega)
        have e2 := ih (x :: a) b (by simp only [List.length_cons]; omega)
        have e3 := ih a (y :: b) (by simp only [List.length_cons]; omega)
        rw [lev_cons]
        split_ifs with hxy
        · subst hxy; exact edits_cons x e1
        · have s1 : Edits (lev a b + 1) (x :: a) (y :: b) :=
            .step (Edit.substitution [] a x y) (edits_cons y e1)
          have s2 : Edits (lev (x :: a) b + 1) (x :: a) (y :: b) :=
            edits_trans e2 (.step (Edit.insertion [] b y) (.refl _))
          have s3 : Edits (lev a (y :: b) + 1) (x :: a) (y :: b) :=
            .step (Edit.deletion [] a x) e3
          rcases min_choice (min (lev a b + 1) (lev (x :: a) b + 1)) (lev a (y :: b) + 1) with h | h
          · rw [h]
            rcases min_choice (lev a b + 1) (lev (x :: a) b + 1) with h | h <;> rw [h] <;> assumption
          · rw [h]; assumption

theorem lev_isLeast (a b : List α) : IsLeast {n | Edits n a b} (lev a b) := by
  refine ⟨edits_lev _ a b le_rfl, fun n hn => ?_⟩
  obtain ⟨k, hk, hA⟩ := Align.of_edits hn
  exact (lev_le_align hA).trans hk

theorem lev_reverse (a b : List α) : lev a.reverse b.reverse = lev a b := by
  refine IsLeast.unique (lev_isLeast _ _) ?_
  have : {n | Edits n a.reverse b.reverse} = {n | Edits n a b} := by
    ext n
    refine ⟨fun h => ?_, edits_reverse⟩
    have := edits_reverse h
    simpa using this
  rw [this]
  exact lev_isLeast a b

/-! ## The programs compute the recurrence -/

/-- The common content of both tables. -/
def tableSpec (r h : List α) (i j : ℕ) : ℕ := lev (r.take i).reverse (h.take j).reverse

theorem tableSpec_zero_left (r h : List α) (j : ℕ) (hj : j ≤ h.length) : tableSpec r h 0 j = j := by
  rw [tableSpec, List.take_zero, List.reverse_nil, lev_nil_left, List.length_reverse,
    List.length_take, min_eq_left hj]

theorem tableSpec_zero_right (r h : List α) (i : ℕ) (hi : i ≤ r.length) : tableSpec r h i 0 = i := by
  rw [tableSpec, List.take_zero, List.reverse_nil, lev_nil_right, List.length_reverse,
    List.length_take, min_eq_left hi]

omit [DecidableEq α] in
theorem take_reverse_succ (r : List α) (i : ℕ) (hi : i < r.length) :
    (r.take (i + 1)).reverse = r[i] :: (r.take i).reverse := by
  rw [List.take_succ_eq_append_getElem hi, List.reverse_append]
  rfl

theorem wer_eq (r h : List α) : wer r h = lev r h := by
  have := fill_eq (terCell r h) r.length h.length (terInit r.length h.length) (tableSpec r h)
    (fun j hj => by rw [terInit_eq _ _ 0 (by omega) j hj, if_pos rfl, tableSpec_zero_left r h j hj])
    (fun i hi => by
      rw [terInit_eq _ _ i hi 0 (by omega), tableSpec_zero_right r h i hi]
      split_ifs <;> simp_all)
    (fun t i j hi hj h1 h2 h3 => by
      have hr : r[i + 1 - 1]? = some r[i] := by simp [hi]
      have hh : h[j + 1 - 1]? = some h[j] := by simp [hj]
      rw [terCell, hr, hh]
      simp only [Nat.add_sub_cancel, Option.some.injEq, h1, h2, h3]
      unfold tableSpec
      rw [take_reverse_succ r i hi, take_reverse_succ h j hj, lev_cons])
    r.length le_rfl h.length le_rfl
  rw [wer, this, tableSpec, List.take_length, List.take_length, lev_reverse]

theorem timit_eq (r h : List α) : timitErrors r h = lev r h := by
  have := fill_eq (timitCell r h) r.length h.length (timitInit r.length h.length) (tableSpec r h)
    (fun j hj => by rw [timitInit_eq _ _ 0 (by omega) j hj, if_pos rfl, tableSpec_zero_left r h j hj])
    (fun i hi => by
      rw [timitInit_eq _ _ i hi 0 (by omega), tableSpec_zero_right r h i hi]
      split_ifs <;> simp_all)
    (fun t i j hi hj h1 h2 h3 => by
      have hr : r[i + 1 - 1]? = some r[i] := by simp [hi]
      have hh : h[j + 1 - 1]? = some h[j] := by simp [hj]
      rw [timitCell, hr, hh]
      simp only [Nat.add_sub_cancel, ne_eq, Option.some.injEq, h1, h2, h3]
      unfold tableSpec
      rw [take_reverse_succ r i hi, take_reverse_succ h j hj, lev_three_way])
    r.length le_rfl h.length le_rfl
  rw [timitErrors, this, tableSpec, List.take_length, List.take_length, lev_reverse]

end

/-! ## Boundary hits -/

theorem argminAux_spec : ∀ (l : List ℤ) (k : ℕ) (best : ℕ × ℤ),
    ((argminAux l k best) = best ∨
      ∃ i, argminAux l k best = (k + i, (argminAux l k best).2) ∧
        l[i]? = some (argminAux l k best).2) ∧
    (argminAux l k best).2 ≤ best.2 ∧ ∀ x ∈ l, (argminAux l k best).2 ≤ x := by
  intro l
  induction l with
  | nil => intro k best; exact ⟨Or.inl rfl, le_rfl, by simp⟩
  | cons x l ih =>
    intro k best
    rw [argminAux]
    split_ifs with hx
    · obtain ⟨h1, h2, h3⟩ := ih (k + 1) (k, x)
      refine ⟨Or.inr ?_, h2.trans hx.le, ?_⟩
      · rcases h1 with h1 | ⟨i, h1, h1'⟩
        · exact ⟨0, by rw [h1]; rfl, by rw [h1]; rfl⟩
        · exact ⟨i + 1, by rw [← add_assoc, add_right_comm]; exact h1, by simpa using h1'⟩
      · intro z hz
        rcases List.mem_cons.mp hz with rfl | hz
        · exact h2
        · exact h3 z hz
    · obtain ⟨h1, h2, h3⟩ := ih (k + 1) best
      refine ⟨?_, h2, ?_⟩
      · rcases h1 with h1 | ⟨i, h1, h1'⟩
        · exact Or.inl h1
        · exact Or.inr ⟨i + 1, by rw [← add_assoc, add_right_comm]; exact h1, by simpa using h1'⟩
      · intro z hz
        rcases List.mem_cons.mp hz with rfl | hz
        · exact h2.trans (not_lt.mp hx)
        · exact h3 z hz

theorem argmin_ok {l : List ℤ} {i : ℕ} {d : ℤ} (h : argmin l = .ok (i, d)) :
    l[i]? = some d ∧ ∀ x ∈ l, d ≤ x := by
  cases l with
  | nil => cases h
  | cons x l =>
    rw [argmin] at h
    obtain ⟨h1, h2, h3⟩ := argminAux_spec l 1 (0, x)
    rw [Except.ok.inj h] at h1 h2 h3
    refine ⟨?_, ?_⟩
    · rcases h1 with h1 | ⟨i', h1, h1'⟩
      · obtain ⟨rfl, rfl⟩ := Prod.mk.inj h1; rfl
      · obtain ⟨rfl, _⟩ := Prod.mk.inj h1
        rw [Nat.add_comm, List.getElem?_cons_succ]; exact h1'
    · intro z hz
      rcases List.mem_cons.mp hz with rfl | hz
      · exact h2
      · exact h3 z hz

theorem argmin_ne_nil {l : List ℤ} (h : l ≠ []) : ∃ i d, argmin l = .ok (i, d) := by
  cases l with
  | nil => exact absurd rfl h
  | cons x l => exact ⟨_, _, rfl⟩

theorem hitsLoop_le (delta : ℤ) : ∀ (hyp ref : List ℤ) (k n : ℕ),
    hitsLoop delta hyp ref k = .ok n → n ≤ k + hyp.length := by
  intro hyp
  induction hyp with
  | nil => intro ref k n h; rw [hitsLoop] at h; have := Except.ok.inj h; simp; omega
  | cons b hyp ih =>
    intro ref k n h
    rw [hitsLoop] at h
    rw [List.length_cons]
    split at h
    · cases h
    · split_ifs at h
      · have := ih _ _ _ h; omega
      · have := ih _ _ _ h; omega

theorem hitsLoop_ok (delta : ℤ) : ∀ (hyp ref : List ℤ) (k : ℕ), ref ≠ [] →
    ∃ n, hitsLoop delta hyp ref k = .ok n := by
  intro hyp
  induction hyp with
  | nil => intro ref k _; exact ⟨k, rfl⟩
  | cons b hyp ih =>
    intro ref k h
    obtain ⟨i, d, he⟩ := argmin_ne_nil (l := ref.map (fun r => |b - r|)) (by simpa using h)
    rw [hitsLoop, he]
    dsimp only
    split_ifs
    · exact ih _ _ (by
        intro h0
        have := congrArg List.length h0
        rw [List.length_set] at this
        exact h (List.length_eq_zero_iff.mp this))
    · exact ih _ _ h

/-- Invariant of the loop: `done` is the part of the hypothesis already read, `cur` the modified
reference, `M` the matching built so far. -/
theorem hitsLoop_matching (delta : ℤ) (ref : List ℤ) :
    ∀ (hyp done cur : List ℤ) (M : List (ℕ × ℕ)) (n : ℕ),
    (∀ b ∈ hyp, b + delta < 1000000) →
    Matching ref done delta M → MaximalMatching ref done delta M →
    (∀ i ∈ M.map Prod.fst, ∀ c, cur[i]? = some c → c = 1000000) →
    (∀ i, i ∉ M.map Prod.fst → cur[i]? = ref[i]?) →
    hitsLoop delta hyp cur M.length = .ok n →
    ∃ M', M'.length = n ∧ Matching ref (done ++ hyp) delta M' ∧
      MaximalMatching ref (done ++ hyp) delta M' := by
  intro hyp
  induction hyp with
  | nil =>
    intro done cur M n _ hM hMax _ _ h
    rw [hitsLoop] at h
    rw [List.append_nil]
    exact ⟨M, Except.ok.inj h, hM, hMax⟩
  | cons b hyp ih =>
    intro done cur M n hb hM hMax hin hout h
    have hbd : b + delta < 1000000 := hb b (by simp)
    have hsnd : ∀ j ∈ M.map Prod.snd, j < done.length := by
      intro j hj
      obtain ⟨p, hp, rfl⟩ := List.mem_map.mp hj
      obtain ⟨r, c, _, hc, _⟩ := hM.close p hp
      exact (List.getElem?_eq_some_iff.mp hc).1
    have happ : done ++ b :: hyp = (done ++ [b]) ++ hyp := by simp
    have hold : ∀ (j : ℕ) (c : ℤ), done[j]? = some c → (done ++ [b])[j]? = some c := by
      intro j c hc
      rw [List.getElem?_append_left (List.getElem?_eq_some_iff.mp hc).1]
      exact hc
    have hM1 : Matching ref (done ++ [b]) delta M := by
      refine ⟨hM.ref_once, hM.hyp_once, fun p hp => ?_⟩
      obtain ⟨r, c, h1, h2, h3⟩ := hM.close p hp
      exact ⟨r, c, h1, hold _ _ h2, h3⟩
    rw [hitsLoop] at h
    split at h
    · cases h
    · rename_i i d he
      obtain ⟨ha1, ha2⟩ := argmin_ok he
      rw [List.getElem?_map, Option.map_eq_some_iff] at ha1
      obtain ⟨c, hc, hcd⟩ := ha1
      have hcases : ∀ (i' j : ℕ) (r b' : ℤ), ref[i']? = some r → (done ++ [b])[j]? = some b' →
          j ≠ done.length → done[j]? = some b' := by
        intro i' j r b' _ hj hne
        have hlt := (List.getElem?_eq_some_iff.mp hj).1
        rw [List.length_append, List.length_singleton] at hlt
        rwa [List.getElem?_append_left (by omega)] at hj
      split_ifs at h with hle
      · -- a hit
        have hi : i ∉ M.map Prod.fst := by
          intro hi
          have hcc := hin i hi c hc
          rw [hcc] at hcd
          have := neg_le_abs (b - 1000000)
          omega
        have hri : ref[i]? = some c := by rw [← hout i hi]; exact hc
        have hlen : ((i, done.length) :: M).length = M.length + 1 := rfl
        rw [happ]
        refine ih (done ++ [b]) (cur.set i 1000000) ((i, done.length) :: M) n
          (fun b' hb' => hb b' (by simp [hb'])) ?_ ?_ ?_ ?_ (by rw [hlen]; exact h)
        · refine ⟨?_, ?_, ?_⟩
          · rw [List.map_cons, List.nodup_cons]; exact ⟨hi, hM.ref_once⟩
          · rw [List.map_cons, List.nodup_cons]
            exact ⟨fun hj => absurd (hsnd _ hj) (lt_irrefl _), hM.hyp_once⟩
          · intro p hp
            rcases List.mem_cons.mp hp with rfl | hp
            · exact ⟨c, b, hri, by simp, by rw [hcd]; exact hle⟩
            · exact hM1.close p hp
        · intro i' j r b' h1 h2 h3 h4
          rw [List.map_cons, List.mem_cons, not_or] at h3 h4
          exact hMax i' j r b' h1 (hcases i' j r b' h1 h2 h4.1) h3.2 h4.2
        · intro i' hi' c' hc'
          rw [List.map_cons, List.mem_cons] at hi'
          by_cases hii : i' = i
          · subst hii
            have hlt := (List.getElem?_eq_some_iff.mp hc).1
            rw [List.getElem?_set_self hlt] at hc'
            exact (Option.some.inj hc').symm
          · rw [List.getElem?_set_ne (Ne.symm hii)] at hc'
            exact hin i' (hi'.resolve_left hii) c' hc'
        · intro i' hi'
          rw [List.map_cons, List.mem_cons, not_or] at hi'
          rw [List.getElem?_set_ne (Ne.symm hi'.1)]
          exact hout i' hi'.2
      · -- no hit
        rw [happ]
        refine ih (done ++ [b]) cur M n (fun b' hb' => hb b' (by simp [hb'])) hM1 ?_ hin hout h
        intro i' j r b' h1 h2 h3 h4
        by_cases hj : j = done.length
        · subst hj
          have hbb : b' = b := by
            rw [List.getElem?_append_right le_rfl] at h2
            simpa using h2.symm
          subst hbb
          have hmem : r ∈ cur := by
            have := hout i' h3
            rw [h1] at this
            exact List.mem_of_getElem? this
          have := ha2 _ (List.mem_map.mpr ⟨r, hmem, rfl⟩)
          omega
        · exact hMax i' j r b' h1 (hcases i' j r b' h1 h2 hj) h3 h4

theorem matching_le {ref hyp : List ℤ} {delta : ℤ} {M : List (ℕ × ℕ)} (h : Matching ref hyp delta M) :
    M.length ≤ ref.length ∧ M.length ≤ hyp.length := by
  constructor
  · have h1 : (M.map Prod.fst) ⊆ List.range ref.length := by
      intro i hi
      obtain ⟨p, hp, rfl⟩ := List.mem_map.mp hi
      obtain ⟨r, c, hr, _, _⟩ := h.close p hp
      exact List.mem_range.mpr (List.getElem?_eq_some_iff.mp hr).1
    have := (List.subperm_of_subset h.ref_once h1).length_le
    simpa using this
  · have h1 : (M.map Prod.snd) ⊆ List.range hyp.length := by
      intro i hi
      obtain ⟨p, hp, rfl⟩ := List.mem_map.mp hi
      obtain ⟨r, c, _, hr, _⟩ := h.close p hp
      exact List.mem_range.mpr (List.getElem?_eq_some_iff.mp hr).1
    have := (List.subperm_of_subset h.hyp_once h1).length_le
    simpa using this

theorem hits2Loop_le (delta : ℤ) (hyp : List ℤ) : ∀ (m k : ℕ) (ref : List ℤ) (c n : ℕ),
    hits2Loop delta hyp m k ref c = .ok n → n ≤ c + m := by
  intro m
  induction m with
  | zero => intro k ref c n h; rw [hits2Loop] at h; have := Except.ok.inj h; omega
  | succ m ih =>
    intro k ref c n h
    rw [hits2Loop] at h
    split at h
    · have := Except.ok.inj h; omega
    · split at h
      · cases h
      · split_ifs at h
        · have := ih _ _ _ _ h; omega
        · have := ih _ _ _ _ h; omega

/-! ## Boundaries of a labelling -/

section
variable [DecidableEq α]

theorem boundariesLoop_mem : ∀ (us : List α) (u : α) (f b : ℤ),
    b ∈ boundariesLoop us u f ↔
      ∃ k : ℕ, b = f + k ∧ ∃ x y, (u :: us)[k]? = some x ∧ us[k]? = some y ∧ x ≠ y := by
  intro us
  induction us with
  | nil => intro u f b; simp [boundariesLoop]
  | cons v us ih =>
    intro u f b
    rw [boundariesLoop]
    have hrec : ∀ w : α, w = v → ((∃ k : ℕ, b = f + 1 + k ∧ ∃ x y, (w :: us)[k]? = some x ∧
        us[k]? = some y ∧ x ≠ y) ↔ (∃ k : ℕ, b = f + (k + 1 : ℕ) ∧ ∃ x y, (u :: v :: us)[k + 1]? = some x ∧
        (v :: us)[k + 1]? = some y ∧ x ≠ y)) := by
      rintro w rfl
      constructor
      · rintro ⟨k, hk, h⟩
        exact ⟨k, by push_cast; omega, by simpa using h⟩
      · rintro ⟨k, hk, h⟩
        exact ⟨k, by push_cast at hk; omega, by simpa using h⟩
    split_ifs with huv
    · rw [List.mem_cons, ih, hrec v rfl]
      constructor
      · rintro (rfl | ⟨k, hk⟩)
        · exact ⟨0, by simp, u, v, rfl, rfl, Ne.symm huv⟩
        · exact ⟨k + 1, hk⟩
      · rintro ⟨k, hk, h⟩
        cases k with
        | zero => left; simpa using hk
        | succ k => right; exact ⟨k, hk, h⟩
    · rw [not_not] at huv
      rw [ih, hrec u huv.symm]
      constructor
      · rintro ⟨k, hk⟩; exact ⟨k + 1, hk⟩
      · rintro ⟨k, hk, h⟩
        cases k with
        | zero =>
          obtain ⟨x, y, h1, h2, h3⟩ := h
          simp only [List.getElem?_cons_zero, Option.some.injEq] at h1 h2
          exact absurd (h1.symm.trans (huv.symm.trans h2)) h3
        | succ k => exact ⟨k, hk, h⟩

theorem boundariesLoop_sorted : ∀ (us : List α) (u : α) (f : ℤ),
    (boundariesLoop us u f).Pairwise (· < ·) := by
  intro us
  induction us with
  | nil => intro u f; exact List.Pairwise.nil
  | cons v us ih =>
    intro u f
    rw [boundariesLoop]
    split_ifs
    · rw [List.pairwise_cons]
      refine ⟨fun b hb => ?_, ih _ _⟩
      obtain ⟨k, rfl, _⟩ := (boundariesLoop_mem _ _ _ _).mp hb
      omega
    · exact ih _ _

/-! ## Collapsing -/

theorem groupbyKeys_isChain : ∀ (l : List α) (key : Option α),
    (groupbyKeys l key).IsChain (· ≠ ·) ∧ ∀ x, (groupbyKeys l key).head? = some x → some x ≠ key := by
  intro l
  induction l with
  | nil => intro key; exact ⟨List.IsChain.nil, by simp [groupbyKeys]⟩
  | cons x l ih =>
    intro key
    rw [groupbyKeys]
    split_ifs with hx
    · exact ih key
    · refine ⟨?_, ?_⟩
      · rw [List.isChain_cons]
        refine ⟨?_, (ih (some x)).1⟩
        intro y hy hxy
        exact (ih (some x)).2 y hy (by rw [hxy])
      · intro y hy
        simp only [List.head?_cons, Option.some.injEq] at hy
        rw [← hy]; exact hx

theorem groupbyKeys_of_chain : ∀ (l : List α) (key : Option α), l.IsChain (· ≠ ·) →
    (∀ x, l.head? = some x → some x ≠ key) → groupbyKeys l key = l := by
  intro l
  induction l with
  | nil => intro key _ _; rfl
  | cons x l ih =>
    intro key hl hk
    rw [groupbyKeys, if_neg (hk x rfl)]
    rw [List.isChain_cons] at hl
    rw [ih (some x) hl.2 ?_]
    intro y hy h
    exact hl.1 y hy (Option.some.inj h).symm

theorem groupbyKeys_replicate (x : α) (n : ℕ) (l : List α) :
    groupbyKeys (List.replicate n x ++ l) (some x) = groupbyKeys l (some x) := by
  induction n with
  | zero => rfl
  | succ n ih => rw [List.replicate_succ, List.cons_append, groupbyKeys, if_pos rfl, ih]

theorem groupbyKeys_expand : ∀ (s : List (α × ℕ)) (key : Option α),
    groupbyKeys (expand s) key = groupbyKeys (s.map Prod.fst) key := by
  intro s
  induction s with
  | nil => intro key; rfl
  | cons p s ih =>
    intro key
    rw [expand, List.flatMap_cons, ← expand, List.replicate_succ, List.cons_append, List.map_cons,
      groupbyKeys, groupbyKeys]
    split_ifs with h
    · rw [← h, groupbyKeys_replicate, ih]
    · rw [groupbyKeys_replicate, ih]

theorem groupbyKeys_segments : ∀ (l : List α) (key : Option α),
    ∃ (n : ℕ) (s : List (α × ℕ)), s.map Prod.fst = groupbyKeys l key ∧
      l = (match key with | none => [] | some k => List.replicate n k) ++ expand s := by
  intro l
  induction l with
  | nil => intro key; exact ⟨0, [], rfl, by cases key <;> rfl⟩
  | cons x l ih =>
    intro key
    rw [groupbyKeys]
    split_ifs with hx
    · obtain ⟨n, s, h1, h2⟩ := ih key
      refine ⟨n + 1, s, h1, ?_⟩
      subst hx
      dsimp only at h2 ⊢
      rw [List.replicate_succ, List.cons_append]
      exact congrArg _ h2
    · obtain ⟨n, s, h1, h2⟩ := ih (some x)
      refine ⟨0, (x, n) :: s, by rw [List.map_cons, h1], ?_⟩
      have : x :: l = expand ((x, n) :: s) := by
        rw [expand, List.flatMap_cons, ← expand, List.replicate_succ, List.cons_append]
        exact congrArg _ h2
      rw [this]
      cases key <;> rfl

theorem dedup_aux (l : List α) : ∀ (k : ℕ) (full : List α) (prev : Option α),
    (∀ i, full[k + i]? = l[i]?) → (prev = if k = 0 then none else full[k - 1]?) → (k ≠ 0 → prev ≠ none) →
    ((l.zipIdx k).filter (fun p => p.2 = 0 ∨ full[p.2 - 1]? ≠ some p.1)).map Prod.fst
      = groupbyKeys l prev := by
  induction l with
  | nil => intros; rfl
  | cons x l ih =>
    intro k full prev hfull hprev hne
    have hrec := ih (k + 1) full (some x)
      (fun i => by rw [add_assoc, add_comm 1 i]; rw [hfull (i + 1)]; simp)
      (by rw [if_neg (by omega), Nat.add_sub_cancel]
          have := hfull 0
          rw [Nat.add_zero] at this
          rw [this]; simp)
      (by simp)
    rw [List.zipIdx_cons, List.filter_cons]
    rw [groupbyKeys]
    by_cases hk : k = 0
    · subst hk
      rw [if_pos rfl] at hprev
      subst hprev
      simp only [true_or, decide_true, if_true, List.map_cons]
      rw [if_neg (by simp), hrec]
    · rw [if_neg hk] at hprev
      by_cases hx : some x = prev
      · have : ¬ (k = 0 ∨ full[k - 1]? ≠ some x) := by
          rw [not_or, not_not]; exact ⟨hk, by rw [← hprev, hx]⟩
        rw [if_pos hx, ← hx, ← hrec, if_neg (by simpa using this)]
      · have : (k = 0 ∨ full[k - 1]? ≠ some x) := by
          right; rw [← hprev]; exact Ne.symm hx
        rw [if_neg hx, ← hrec, if_pos (by simpa using this), List.map_cons]

theorem dedup_eq_collapse (l : List α) : dedup l = collapse l := by
  rw [dedup, collapse]
  exact dedup_aux l 0 l none (by simp) (by simp) (by simp)

end

end Verif.Scoring
