import Verif.Spec.HMM
import Verif.Lemmas.LogDomain
import Mathlib.Algebra.BigOperators.Fin
import Mathlib.Data.Fintype.BigOperators
import Mathlib.Tactic.Ring

/-!
# Helper lemmas: sums over paths of a chain of non-negative matrices
-/

namespace Verif

open Finset

variable {K n : ℕ}

section Chain

/-- Weight of a path in a chain: `a (p 0) * ∏ M i (p i) (p (i+1)) * b (p last)`. -/
noncomputable def chainW (a : Fin K → ℝ) (M : Fin n → Fin K → Fin K → ℝ) (b : Fin K → ℝ)
    (p : Fin (n + 1) → Fin K) : ℝ :=
  a (p 0) * (∏ i : Fin n, M i (p i.castSucc) (p i.succ)) * b (p (Fin.last n))

noncomputable def chainA (a : Fin K → ℝ) (M : Fin n → Fin K → Fin K → ℝ)
    (t : Fin (n + 1)) : Fin K → ℝ :=
  Fin.induction (motive := fun _ => Fin K → ℝ) a (fun i prev y => ∑ x, prev x * M i x y) t

noncomputable def chainB (M : Fin n → Fin K → Fin K → ℝ) (b : Fin K → ℝ)
    (t : Fin (n + 1)) : Fin K → ℝ :=
  Fin.reverseInduction (motive := fun _ => Fin K → ℝ) b (fun i next x => ∑ y, M i x y * next y) t

/-- Sums over paths split into first state and rest. -/
lemma sum_path_cons {m : ℕ} (f : (Fin (m + 1) → Fin K) → ℝ) :
    ∑ p, f p = ∑ x, ∑ q : Fin m → Fin K, f (Fin.cons x q) := by
  rw [← Fintype.sum_prod_type']
  exact (Fintype.sum_equiv (Fin.consEquiv (fun _ => Fin K)).symm _ _ (fun p => by
    simp [Fin.consEquiv])) 

lemma chainA_succ (a : Fin K → ℝ) (M : Fin (n + 1) → Fin K → Fin K → ℝ) (t : Fin (n + 1)) :
    chainA a M t.succ = chainA (fun y => ∑ x, a x * M 0 x y) (fun i => M i.succ) t := by
  induction t using Fin.induction with
  | zero => rfl
  | succ t ih =>
    have h1 : chainA a M t.succ.succ = fun y => ∑ x, chainA a M t.succ.castSucc x * M t.succ x y := by
      rfl
    rw [h1]
    have h2 : (t.succ.castSucc : Fin (n + 1 + 1)) = t.castSucc.succ := by
      exact (Fin.succ_castSucc t).symm
    rw [h2, ih]
    rfl

lemma chainB_succ (M : Fin (n + 1) → Fin K → Fin K → ℝ) (b : Fin K → ℝ) (t : Fin (n + 1)) :
    chainB M b t.succ = chainB (fun i => M i.succ) b t := by
  induction t using Fin.reverseInduction with
  | last => simp [chainB]
  | cast t ih =>
    rw [Fin.succ_castSucc]
    unfold chainB at ih ⊢
    rw [Fin.reverseInduction_castSucc, Fin.reverseInduction_castSucc]
    funext x
    simp only [← ih]

lemma chainB_castSucc (M : Fin n → Fin K → Fin K → ℝ) (b : Fin K → ℝ) (i : Fin n) (x : Fin K) :
    chainB M b i.castSucc x = ∑ y, M i x y * chainB M b i.succ y := by
  unfold chainB
  rw [Fin.reverseInduction_castSucc]

lemma chainA_castSucc (a : Fin K → ℝ) (M : Fin n → Fin K → Fin K → ℝ) (i : Fin n) (y : Fin K) :
    chainA a M i.succ y = ∑ x, chainA a M i.castSucc x * M i x y := rfl

lemma chainW_cons (a : Fin K → ℝ) (M : Fin (n + 1) → Fin K → Fin K → ℝ) (b : Fin K → ℝ)
    (x : Fin K) (q : Fin (n + 1) → Fin K) :
    chainW a M b (Fin.cons x q) =
      a x * M 0 x (q 0) * ((∏ i : Fin n, M i.succ (q i.castSucc) (q i.succ)) * b (q (Fin.last n))) := by
  unfold chainW
  rw [Fin.prod_univ_succ]
  simp only [Fin.cons_zero, Fin.castSucc_zero, Fin.cons_succ]
  have : (Fin.cons x q : Fin (n + 2) → Fin K) (Fin.last (n + 1)) = q (Fin.last n) := by
    rw [← Fin.succ_last]; simp
  rw [this]
  have h : ∀ i : Fin n, (Fin.cons x q : Fin (n + 2) → Fin K) i.succ.castSucc = q i.castSucc := by
    intro i
    rw [← Fin.succ_castSucc]; simp
  simp only [h]
  ring

lemma sum_chainW_start (a : Fin K → ℝ) (M : Fin n → Fin K → Fin K → ℝ) (b : Fin K → ℝ)
    (s : Fin K) :
    ∑ p : Fin (n + 1) → Fin K, (if p 0 = s then chainW a M b p else 0) = a s * chainB M b 0 s := by
  induction n generalizing a s with
  | zero =>
    rw [sum_path_cons]
    have hb : chainB M b 0 = b := Fin.reverseInduction_last
    rw [hb]
    simp [chainW]
  | succ n ih =>
    rw [sum_path_cons]
    simp only [Fin.cons_zero]
    have : ∀ x, (∑ q : Fin (n + 1) → Fin K, if x = s then chainW a M b (Fin.cons x q) else 0)
        = if x = s then ∑ q : Fin (n + 1) → Fin K, chainW a M b (Fin.cons s q) else 0 := by
      intro x; split_ifs with h <;> simp [h]
    simp only [this, Finset.sum_ite_eq', Finset.mem_univ, if_true]
    have h0 : (0 : Fin (n + 2)) = (0 : Fin (n + 1)).castSucc := rfl
    rw [h0, chainB_castSucc, Finset.mul_sum]
    have h1 : ∀ q : Fin (n + 1) → Fin K, chainW a M b (Fin.cons s q)
        = ∑ y, if q 0 = y then chainW (fun y => a s * M 0 s y) (fun i => M i.succ) b q else 0 := by
      intro q
      rw [chainW_cons]
      simp [chainW]
      ring
    simp only [h1]
    rw [Finset.sum_comm]
    refine Finset.sum_congr rfl fun y _ => ?_
    rw [ih, chainB_succ]
    ring

/-- Forward-backward factorisation: total weight of the paths that are in `s` at time `t`. -/
lemma sum_chainW_state (a : Fin K → ℝ) (M : Fin n → Fin K → Fin K → ℝ) (b : Fin K → ℝ)
    (t : Fin (n + 1)) (s : Fin K) :
    ∑ p : Fin (n + 1) → Fin K, (if p t = s then chainW a M b p else 0)
      = chainA a M t s * chainB M b t s := by
  induction n generalizing a with
  | zero =>
    have : t = 0 := Fin.ext (by omega)
    subst this
    exact sum_chainW_start a M b s
  | succ n ih =>
    induction t using Fin.cases with
    | zero => exact sum_chainW_start a M b s
    | succ t =>
      rw [chainA_succ, chainB_succ, ← ih, sum_path_cons, Finset.sum_comm]
      refine Finset.sum_congr rfl fun q _ => ?_
      simp only [Fin.cons_succ]
      split_ifs with h
      · simp only [chainW_cons]
        rw [← Finset.sum_mul]
        simp [chainW]
        ring
      · simp

/-- Forward-backward factorisation for a transition. -/
lemma sum_chainW_trans (a : Fin K → ℝ) (M : Fin n → Fin K → Fin K → ℝ) (b : Fin K → ℝ)
    (i : Fin n) (s d : Fin K) :
    ∑ p : Fin (n + 1) → Fin K, (if p i.castSucc = s ∧ p i.succ = d then chainW a M b p else 0)
      = chainA a M i.castSucc s * M i s d * chainB M b i.succ d := by
  induction n generalizing a with
  | zero => exact i.elim0
  | succ n ih =>
    induction i using Fin.cases with
    | zero =>
      rw [sum_path_cons]
      simp only [Fin.castSucc_zero, Fin.cons_zero, Fin.cons_succ]
      have : ∀ x, (∑ q : Fin (n + 1) → Fin K,
          if x = s ∧ q 0 = d then chainW a M b (Fin.cons x q) else 0)
          = if x = s then ∑ q : Fin (n + 1) → Fin K,
              (if q 0 = d then chainW a M b (Fin.cons s q) else 0) else 0 := by
        intro x; split_ifs with h <;> simp [h]
      simp only [this, Finset.sum_ite_eq', Finset.mem_univ, if_true]
      have h1 : ∀ q : Fin (n + 1) → Fin K, (if q 0 = d then chainW a M b (Fin.cons s q) else 0)
          = if q 0 = d then chainW (fun y => a s * M 0 s y) (fun i => M i.succ) b q else 0 := by
        intro q
        rw [chainW_cons]
        simp only [chainW, mul_assoc]
      simp only [h1]
      rw [sum_chainW_start, chainB_succ]
      rfl
    | succ i =>
      have e1 : (i.succ.castSucc : Fin (n + 2)) = i.castSucc.succ := (Fin.succ_castSucc i).symm
      rw [e1, chainA_succ, chainB_succ, ← ih, sum_path_cons, Finset.sum_comm]
      refine Finset.sum_congr rfl fun q _ => ?_
      simp only [Fin.cons_succ]
      split_ifs with h
      · simp only [chainW_cons]
        rw [← Finset.sum_mul]
        simp [chainW]
        ring
      · simp

lemma chainA_nonneg {a : Fin K → ℝ} {M : Fin n → Fin K → Fin K → ℝ} (ha : ∀ x, 0 ≤ a x)
    (hM : ∀ i x y, 0 ≤ M i x y) (t : Fin (n + 1)) (s : Fin K) : 0 ≤ chainA a M t s := by
  induction t using Fin.induction generalizing s with
  | zero => exact ha s
  | succ t ih =>
    rw [chainA_castSucc]
    exact Finset.sum_nonneg fun x _ => mul_nonneg (ih x) (hM _ _ _)

end Chain

section Link

/-- First factor of the chain of a compiled graph. -/
noncomputable def gA (g : CGraph K) (llhs : Fin (n + 1) → Frame K) (s : Fin K) : ℝ :=
  lexp (llhs 0 s) * lexp (g.init s)

/-- Transition factors of the chain of a compiled graph. -/
noncomputable def gM (g : CGraph K) (llhs : Fin (n + 1) → Frame K) (i : Fin n)
    (x y : Fin K) : ℝ :=
  lexp (g.trans x y) * lexp (llhs i.succ y)

/-- Last factor of the chain of a compiled graph. -/
noncomputable def gB (g : CGraph K) (s : Fin K) : ℝ := lexp (g.final s)

lemma lexp_logAlphas (g : CGraph K) (llhs : Fin (n + 1) → Frame K) (t : Fin (n + 1)) (s : Fin K) :
    lexp (logAlphas g llhs t s) = chainA (gA g llhs) (gM g llhs) t s := by
  induction t using Fin.induction generalizing s with
  | zero => exact lexp_add _ _
  | succ i ih =>
    rw [chainA_castSucc]
    have : logAlphas g llhs i.succ s
        = llhs i.succ s + lse (fun j => logAlphas g llhs i.castSucc j + g.trans j s) := rfl
    rw [this, lexp_add, lexp_lse, Finset.mul_sum]
    refine Finset.sum_congr rfl fun x _ => ?_
    rw [lexp_add, ih]
    simp only [gM]
    ring

lemma logBetas_castSucc (g : CGraph K) (llhs : Fin (n + 1) → Frame K) (i : Fin n) (s : Fin K) :
    logBetas g llhs i.castSucc s
      = lse (fun j => g.trans s j + llhs i.succ j + logBetas g llhs i.succ j) := by
  unfold logBetas
  rw [Fin.reverseInduction_castSucc]

lemma lexp_logBetas (g : CGraph K) (llhs : Fin (n + 1) → Frame K) (t : Fin (n + 1)) (s : Fin K) :
    lexp (logBetas g llhs t s) = chainB (gM g llhs) (gB g) t s := by
  induction t using Fin.reverseInduction generalizing s with
  | last =>
    unfold logBetas chainB
    rw [Fin.reverseInduction_last, Fin.reverseInduction_last]
    rfl
  | cast i ih =>
    rw [chainB_castSucc, logBetas_castSucc, lexp_lse]
    refine Finset.sum_congr rfl fun x _ => ?_
    rw [lexp_add, lexp_add, ih]
    rfl

lemma chainW_eq_pathWeight (g : CGraph K) (llhs : Fin (n + 1) → Frame K)
    (p : Fin (n + 1) → Fin K) :
    chainW (gA g llhs) (gM g llhs) (gB g) p = Spec.pathWeight g llhs p := by
  unfold chainW Spec.pathWeight gA gM gB
  rw [Finset.prod_mul_distrib, Fin.prod_univ_succ (fun t => lexp (llhs t (p t)))]
  ring

lemma pathWeight_nonneg (g : CGraph K) (llhs : Fin (n + 1) → Frame K)
    (p : Fin (n + 1) → Fin K) : 0 ≤ Spec.pathWeight g llhs p := by
  unfold Spec.pathWeight
  have := lexp_nonneg
  exact mul_nonneg (mul_nonneg (mul_nonneg (this _) (Finset.prod_nonneg fun _ _ => this _))
    (Finset.prod_nonneg fun _ _ => this _)) (this _)

/-- Weight of the paths that are in state `s` at time `t`. -/
lemma alpha_beta (g : CGraph K) (llhs : Fin (n + 1) → Frame K) (t : Fin (n + 1)) (s : Fin K) :
    lexp (logAlphas g llhs t s + logBetas g llhs t s)
      = ∑ p : Fin (n + 1) → Fin K, (if p t = s then Spec.pathWeight g llhs p else 0) := by
  rw [lexp_add, lexp_logAlphas, lexp_logBetas, ← sum_chainW_state]
  simp only [chainW_eq_pathWeight]

lemma lexp_logXi (g : CGraph K) (llhs : Fin (n + 1) → Frame K) (i : Fin n) (s d : Fin K) :
    lexp (logXi g llhs i s d)
      = ∑ p : Fin (n + 1) → Fin K,
          (if p i.castSucc = s ∧ p i.succ = d then Spec.pathWeight g llhs p else 0) := by
  simp only [← chainW_eq_pathWeight]
  rw [sum_chainW_trans]
  unfold logXi
  rw [lexp_add, lexp_add, lexp_add, lexp_logAlphas, lexp_logBetas]
  simp only [gM]
  ring

lemma lexp_lognorm (g : CGraph K) (llhs : Fin (n + 1) → Frame K) (t : Fin (n + 1)) :
    lexp (lognorm g llhs t) = Spec.evidence g llhs := by
  unfold lognorm Spec.evidence
  rw [lexp_lse]
  simp only [alpha_beta]
  rw [Finset.sum_comm]
  simp

lemma lexp_xiNorm (g : CGraph K) (llhs : Fin (n + 1) → Frame K) (i : Fin n) :
    lexp (xiNorm g llhs i) = Spec.evidence g llhs := by
  unfold xiNorm Spec.evidence
  rw [lexp_llog (Finset.sum_nonneg fun _ _ => Finset.sum_nonneg fun _ _ => lexp_nonneg _)]
  simp only [lexp_logXi]
  have h1 : ∀ s : Fin K, (∑ d : Fin K, ∑ p : Fin (n + 1) → Fin K,
      if p i.castSucc = s ∧ p i.succ = d then Spec.pathWeight g llhs p else 0)
      = ∑ p : Fin (n + 1) → Fin K, if p i.castSucc = s then Spec.pathWeight g llhs p else 0 := by
    intro s
    rw [Finset.sum_comm]
    refine Finset.sum_congr rfl fun p _ => ?_
    by_cases h : p i.castSucc = s <;> simp [h]
  simp only [h1]
  rw [Finset.sum_comm]
  simp

end Link

section Viterbi

variable {am : Frame K → Fin K}

/-- Partial score of a path up to frame `t`, accumulated as the code does. -/
noncomputable def partScore (g : CGraph K) (llhs : Fin (n + 1) → Frame K)
    (p : Fin (n + 1) → Fin K) (t : Fin (n + 1)) : LogR :=
  Fin.induction (motive := fun _ => LogR) (llhs 0 (p 0) + g.init (p 0))
    (fun i prev => llhs i.succ (p i.succ) + (prev + g.trans (p i.castSucc) (p i.succ))) t

lemma partScore_succ (g : CGraph K) (llhs : Fin (n + 1) → Frame K)
    (p : Fin (n + 1) → Fin K) (i : Fin n) :
    partScore g llhs p i.succ
      = llhs i.succ (p i.succ) + (partScore g llhs p i.castSucc
          + g.trans (p i.castSucc) (p i.succ)) := rfl

lemma omega_succ (g : CGraph K) (llhs : Fin (n + 1) → Frame K) (i : Fin n) (s : Fin K) :
    omega am g llhs i.succ s
      = llhs i.succ s + (omega am g llhs i.castSucc (backtrack am g llhs i s)
          + g.trans (backtrack am g llhs i s) s) := rfl

lemma partScore_le_omega (ham : IsArgmax am) (g : CGraph K) (llhs : Fin (n + 1) → Frame K)
    (p : Fin (n + 1) → Fin K) (t : Fin (n + 1)) :
    partScore g llhs p t ≤ omega am g llhs t (p t) := by
  induction t using Fin.induction with
  | zero => exact le_rfl
  | succ i ih =>
    rw [partScore_succ, omega_succ]
    have h1 : partScore g llhs p i.castSucc + g.trans (p i.castSucc) (p i.succ)
        ≤ omega am g llhs i.castSucc (p i.castSucc) + g.trans (p i.castSucc) (p i.succ) := by
      gcongr
    have h2 := ham (fun j => omega am g llhs i.castSucc j + g.trans j (p i.succ)) (p i.castSucc)
    have h3 := h1.trans h2
    exact add_le_add le_rfl h3

lemma bestPath_castSucc (g : CGraph K) (llhs : Fin (n + 1) → Frame K) (i : Fin n) :
    bestPath am g llhs i.castSucc = backtrack am g llhs i (bestPath am g llhs i.succ) := by
  unfold bestPath
  rw [Fin.reverseInduction_castSucc]

lemma bestPath_last (g : CGraph K) (llhs : Fin (n + 1) → Frame K) :
    bestPath am g llhs (Fin.last n)
      = am (fun s => omega am g llhs (Fin.last n) s + g.final s) := by
  unfold bestPath
  rw [Fin.reverseInduction_last]

lemma partScore_bestPath (g : CGraph K) (llhs : Fin (n + 1) → Frame K) (t : Fin (n + 1)) :
    partScore g llhs (bestPath am g llhs) t = omega am g llhs t (bestPath am g llhs t) := by
  induction t using Fin.induction with
  | zero => rfl
  | succ i ih =>
    rw [partScore_succ, omega_succ, ih, bestPath_castSucc]

lemma partScore_eq (g : CGraph K) (llhs : Fin (n + 1) → Frame K) (p : Fin (n + 1) → Fin K) :
    partScore g llhs p (Fin.last n) = g.init (p 0)
      + (∑ i : Fin n, g.trans (p i.castSucc) (p i.succ)) + (∑ t, llhs t (p t)) := by
  induction n with
  | zero =>
    simp [partScore, add_comm]
  | succ n ih =>
    have hsub : ∀ t : Fin (n + 1), partScore g llhs p t.castSucc
        = partScore g (fun t : Fin (n + 1) => llhs t.castSucc) (fun t => p t.castSucc) t := by
      intro t
      induction t using Fin.induction with
      | zero => rfl
      | succ i ih2 =>
        rw [← Fin.succ_castSucc, partScore_succ, ih2, partScore_succ]
        rfl
    rw [← Fin.succ_last, partScore_succ, hsub, ih,
      Fin.sum_univ_castSucc (fun i : Fin (n + 1) => g.trans (p i.castSucc) (p i.succ)),
      Fin.sum_univ_castSucc (fun t : Fin (n + 2) => llhs t (p t))]
    simp only [Fin.succ_last, Fin.castSucc_zero, Fin.succ_castSucc]
    abel

end Viterbi

end Verif
