import Verif.Model.Nnet
import Mathlib.LinearAlgebra.Matrix.Block
import Mathlib.Analysis.Calculus.Deriv.Add
import Mathlib.Analysis.Calculus.Deriv.Mul
import Mathlib.Tactic

/-!
# Auto-regressive networks (C66) and flows (C82)
-/

namespace Verif.Props

open Verif Verif.Nnet

variable {D W F : ℕ}

lemma maskedForward_congr {i o : ℕ} (mask : Fin o → Fin i → ℝ) (l : Linear i o)
    (x x' : Fin i → ℝ) (a : Fin o) (h : ∀ b, mask a b ≠ 0 → x b = x' b) :
    maskedForward mask l x a = maskedForward mask l x' a := by
  unfold maskedForward Linear.forward
  dsimp only
  congr 1
  refine Finset.sum_congr rfl fun b _ => ?_
  by_cases hb : mask a b = 0
  · rw [hb]; simp
  · rw [h b hb]

lemma hiddenForward_conn (act : ℝ → ℝ) : ∀ (ls : List (HiddenLayer W)) (conn : Fin W → ℕ)
    (h h' : Fin W → ℝ), (hiddenForward act ls conn h).2 = (hiddenForward act ls conn h').2 := by
  intro ls
  induction ls with
  | nil => intro conn h h'; rfl
  | cons l ls ih => intro conn h h'; exact ih _ _ _

lemma hiddenForward_congr (act : ℝ → ℝ) (d : ℕ) : ∀ (ls : List (HiddenLayer W)) (conn : Fin W → ℕ)
    (h h' : Fin W → ℝ), (∀ a, conn a < d → h a = h' a) →
    ∀ a, (hiddenForward act ls conn h).2 a < d →
      (hiddenForward act ls conn h).1 a = (hiddenForward act ls conn h').1 a := by
  intro ls
  induction ls with
  | nil => intro conn h h' hh a ha; exact hh a ha
  | cons l ls ih =>
    intro conn h h' hh
    apply ih
    intro a ha
    congr 1
    apply maskedForward_congr
    intro b hb
    apply hh
    unfold createMask at hb
    have : l.conn a + 1 ≥ conn b + 1 := by
      by_contra hc; exact hb (if_neg hc)
    omega

/-! ## C66 -/

/-- **C66.** For every depth, width, choice of connections, weights and activation, the `d`-th mean
and the `d`-th variance are the same for two inputs that agree on the dimensions before `d`. -/
theorem C66_autoregressive (net : ARNet D W F) (f : Fin F → ℝ) (x x' : Fin D → ℝ) (d : Fin D)
    (h : ∀ j, j < d → x j = x' j) :
    (arForward net x f).1 d = (arForward net x' f).1 d ∧
    (arForward net x f).2 d = (arForward net x' f).2 d := by
  unfold arForward arOut
  dsimp only
  set h0 : Fin W → ℝ := fun a => net.act
    (maskedForward (createMask (fun d : Fin D => d.val) net.conn0) net.lin0 x a
      + (if F = 0 then 0 else net.linF.forward f a)) with hh0
  set h0' : Fin W → ℝ := fun a => net.act
    (maskedForward (createMask (fun d : Fin D => d.val) net.conn0) net.lin0 x' a
      + (if F = 0 then 0 else net.linF.forward f a)) with hh0'
  have e0 : ∀ a, net.conn0 a < d.val → h0 a = h0' a := by
    intro a ha
    simp only [hh0, hh0']
    congr 2
    apply maskedForward_congr
    intro b hb
    apply h
    unfold createMask at hb
    have : net.conn0 a + 1 ≥ b.val + 1 := by
      by_contra hc; exact hb (if_neg hc)
    exact Fin.lt_def.2 (by omega)
  have key : ∀ l : Linear W D,
      maskedForward (createFinalMask (fun d : Fin D => d.val)
        (hiddenForward net.act net.rest net.conn0 h0).2) l
        (hiddenForward net.act net.rest net.conn0 h0).1 d =
      maskedForward (createFinalMask (fun d : Fin D => d.val)
        (hiddenForward net.act net.rest net.conn0 h0').2) l
        (hiddenForward net.act net.rest net.conn0 h0').1 d := by
    intro l
    rw [← hiddenForward_conn net.act net.rest net.conn0 h0 h0']
    apply maskedForward_congr
    intro b hb
    apply hiddenForward_congr net.act d.val net.rest net.conn0 h0 h0' e0
    unfold createFinalMask at hb
    have : d.val + 1 > (hiddenForward net.act net.rest net.conn0 h0).2 b + 1 := by
      by_contra hc; exact hb (if_neg hc)
    omega
  rw [key net.mean, key net.logvar]
  exact ⟨rfl, rfl⟩

/-- **C66 (construction).** The network can be built exactly when there is at least one hidden layer
and, unless it has no units, at least two input dimensions. -/
theorem C66_build (dimIn depth width : ℕ) :
    buildError dimIn depth width = none ↔ 1 ≤ depth ∧ (2 ≤ dimIn ∨ width = 0) := by
  unfold buildError
  by_cases h1 : depth = 0
  · simp [h1]
  · rw [if_neg h1]
    by_cases h2 : dimIn ≤ 1 ∧ 0 < width
    · rw [if_pos h2]; simp; omega
    · rw [if_neg h2]; simp; omega

/-- A network whose second mean is the first input: the network is not constant. -/
noncomputable def demoNet : ARNet 2 1 0 where
  conn0 := fun _ => 0
  lin0 := ⟨fun _ _ => 1, fun _ => 0⟩
  linF := ⟨fun _ _ => 0, fun _ => 0⟩
  rest := [⟨fun _ => 0, ⟨fun _ _ => 1, fun _ => 0⟩⟩]
  act := id
  mean := ⟨fun _ _ => 1, fun _ => 0⟩
  logvar := ⟨fun _ _ => 0, fun _ => 0⟩

-- the second output moves with the first input but not with the second
example : (arForward demoNet ![3, 5] 0).1 1 = (arForward demoNet ![3, 7] 0).1 1 ∧
    (arForward demoNet ![3, 5] 0).1 1 ≠ (arForward demoNet ![4, 5] 0).1 1 := by
  refine ⟨(C66_autoregressive demoNet 0 _ _ 1 (fun j hj => ?_)).1, ?_⟩
  · fin_cases j
    · rfl
    · simp at hj
  · simp [arForward, arOut, maskedForward, Linear.forward, demoNet, hiddenForward, createMask,
      createFinalMask, sigmoid]
    norm_num

/-! ## C82 -/

lemma variance_pos (net : ARNet D W F) (f : Fin F → ℝ) (x : Fin D → ℝ) (d : Fin D) :
    0 < (arForward net x f).2 d := by
  unfold arForward arOut sigmoid
  dsimp only
  have : 0 < Real.exp (-(maskedForward (createFinalMask (fun d : Fin D => d.val)
    (hiddenForward net.act net.rest net.conn0 fun a => net.act
      (maskedForward (createMask (fun d : Fin D => d.val) net.conn0) net.lin0 x a
      + (if F = 0 then 0 else net.linF.forward f a))).2) net.logvar
    (hiddenForward net.act net.rest net.conn0 fun a => net.act
      (maskedForward (createMask (fun d : Fin D => d.val) net.conn0) net.lin0 x a
      + (if F = 0 then 0 else net.linF.forward f a))).1 d)) := Real.exp_pos _
  positivity

lemma flowStep_congr (net : ARNet D W F) (f : Fin F → ℝ) (x x' : Fin D → ℝ) (d : Fin D)
    (h : ∀ j, j ≤ d → x j = x' j) : flowStep net f x d = flowStep net f x' d := by
  obtain ⟨h1, h2⟩ := C66_autoregressive net f x x' d (fun j hj => h j hj.le)
  unfold flowStep
  rw [h1, h2, h d le_rfl]

/-- **C82 (invertible).** Every flow step is a bijection of the data space, whatever the weights. -/
theorem C82_step_bijective (net : ARNet D W F) (f : Fin F → ℝ) :
    Function.Bijective (flowStep net f) := by
  constructor
  · intro x x' hxx
    have key : ∀ k : ℕ, ∀ d : Fin D, d.val < k → x d = x' d := by
      intro k
      induction k with
      | zero => intro d hd; omega
      | succ k ih =>
        intro d hd
        have hlt : ∀ j, j < d → x j = x' j := fun j hj => ih j (by
          have := Fin.lt_def.1 hj; omega)
        obtain ⟨h1, h2⟩ := C66_autoregressive net f x x' d hlt
        have := congrFun hxx d
        unfold flowStep at this
        rw [h1, h2] at this
        have hs : Real.sqrt ((arForward net x' f).2 d) ≠ 0 :=
          (Real.sqrt_pos.2 (variance_pos net f x' d)).ne'
        exact mul_left_cancel₀ hs (add_left_cancel this)
    funext d
    exact key (d.val + 1) d (by omega)
  · intro y
    have key : ∀ k : ℕ, k ≤ D → ∃ x, ∀ d : Fin D, d.val < k → flowStep net f x d = y d := by
      intro k
      induction k with
      | zero => intro _; exact ⟨0, fun d hd => by omega⟩
      | succ k ih =>
        intro hk
        obtain ⟨x, hx⟩ := ih (by omega)
        set e : Fin D := ⟨k, by omega⟩ with he
        refine ⟨Function.update x e ((y e - (arForward net x f).1 e)
          / Real.sqrt ((arForward net x f).2 e)), fun d hd => ?_⟩
        have hag : ∀ j, j < e → Function.update x e ((y e - (arForward net x f).1 e)
          / Real.sqrt ((arForward net x f).2 e)) j = x j := fun j hj =>
          Function.update_of_ne hj.ne _ _
        by_cases hde : d = e
        · rw [hde]
          obtain ⟨h1, h2⟩ := C66_autoregressive net f _ x e hag
          unfold flowStep
          rw [h1, h2, Function.update_self, mul_div_cancel₀ _
            (Real.sqrt_pos.2 (variance_pos net f x e)).ne']
          ring
        · have hlt : d.val < k := by
            have : d.val ≠ k := fun h => hde (Fin.ext h)
            omega
          rw [flowStep_congr net f _ x d (fun j hj => hag j (Fin.lt_def.2 (by
            have := Fin.le_def.1 hj
            simp only [he]; omega)))]
          exact hx d hlt
    obtain ⟨x, hx⟩ := key D le_rfl
    exact ⟨x, funext fun d => hx d d.isLt⟩

/-- **C82 (Jacobian).** The partial derivative of output `d` of a flow step is zero along every later
input and the standard deviation along input `d`: the Jacobian is triangular. -/
theorem C82_step_triangular (net : ARNet D W F) (f : Fin F → ℝ) (x : Fin D → ℝ) (d j : Fin D)
    (hj : d ≤ j) :
    HasDerivAt (fun t => flowStep net f (Function.update x j t) d)
      (if d = j then Real.sqrt ((arForward net x f).2 d) else 0) (x j) := by
  by_cases h : d = j
  · subst h
    rw [if_pos rfl]
    have e : (fun t => flowStep net f (Function.update x d t) d)
        = fun t => (arForward net x f).1 d + Real.sqrt ((arForward net x f).2 d) * t := by
      funext t
      obtain ⟨h1, h2⟩ := C66_autoregressive net f (Function.update x d t) x d
        (fun j hj => Function.update_of_ne hj.ne _ _)
      unfold flowStep
      rw [h1, h2, Function.update_self]
    rw [e]
    have := ((hasDerivAt_id (x d)).const_mul (Real.sqrt ((arForward net x f).2 d))).const_add
      ((arForward net x f).1 d)
    simpa using this
  · rw [if_neg h]
    have e : (fun t => flowStep net f (Function.update x j t) d) = fun _ => flowStep net f x d := by
      funext t
      apply flowStep_congr
      intro i hi
      exact Function.update_of_ne (fun h' : i = j => h (le_antisymm hj (h' ▸ hi))) _ _
    rw [e]
    exact hasDerivAt_const _ _

/-- **C82 (log-determinant).** The correction added to the log-likelihood is minus the log of the
determinant of the Jacobian (any matrix whose entries on and above the diagonal are the partial
derivatives). -/
theorem C82_correction_is_logdet (net : ARNet D W F) (f : Fin F → ℝ) (x : Fin D → ℝ)
    (J : Matrix (Fin D) (Fin D) ℝ)
    (hJ : ∀ d j, d ≤ j →
      HasDerivAt (fun t => flowStep net f (Function.update x j t) d) (J d j) (x j)) :
    0 < J.det ∧ flowCorrection net f x = - Real.log J.det := by
  have hent : ∀ d j, d ≤ j → J d j = if d = j then Real.sqrt ((arForward net x f).2 d) else 0 :=
    fun d j h => (hJ d j h).unique (C82_step_triangular net f x d j h)
  have htri : J.BlockTriangular OrderDual.toDual := by
    intro d j hdj
    have : d < j := hdj
    rw [hent d j this.le, if_neg this.ne]
  have hdet : J.det = ∏ d, Real.sqrt ((arForward net x f).2 d) := by
    rw [Matrix.det_of_isLowerTriangular J htri]
    exact Finset.prod_congr rfl fun d _ => by rw [hent d d le_rfl, if_pos rfl]
  have hpos : ∀ d, 0 < Real.sqrt ((arForward net x f).2 d) := fun d =>
    Real.sqrt_pos.2 (variance_pos net f x d)
  rw [hdet]
  refine ⟨Finset.prod_pos fun d _ => hpos d, ?_⟩
  rw [Real.log_prod (fun d _ => (hpos d).ne')]
  unfold flowCorrection
  rw [Finset.mul_sum, ← Finset.sum_neg_distrib]
  refine Finset.sum_congr rfl fun d _ => ?_
  rw [Real.log_sqrt (variance_pos net f x d).le]
  ring

/-- The states visited by a sequence of flow steps and the sum of the corrections. -/
noncomputable def flowSpec (f : Fin F → ℝ) : List (ARNet D W F) → (Fin D → ℝ) → (Fin D → ℝ) × ℝ
  | [], x => (x, 0)
  | net :: nets, x =>
    let r := flowSpec f nets (flowStep net f x)
    (r.1, flowCorrection net f x + r.2)

lemma flow_fold (hF : 0 < F) (f : Fin F → ℝ) : ∀ (nets : List (ARNet D W F)) (x : Fin D → ℝ) (l : ℝ),
    nets.foldlM (fun (st : (Fin D → ℝ) × ℝ) net =>
      (match callError F 2 with
      | some e => .error e
      | none => .ok (flowStep net f st.1, st.2 + flowCorrection net f st.1) :
        Except Err ((Fin D → ℝ) × ℝ))) (x, l)
    = .ok ((flowSpec f nets x).1, l + (flowSpec f nets x).2) := by
  have hcall : callError F 2 = none := by
    unfold callError; rw [if_neg (by omega), if_neg (by omega)]
  intro nets
  induction nets with
  | nil => intro x l; simp [flowSpec, pure, Except.pure]
  | cons net nets ih =>
    intro x l
    rw [List.foldlM_cons, hcall]
    have := ih (flowStep net f x) (l + flowCorrection net f x)
    rw [hcall] at this
    simp only [bind, Except.bind] at *
    rw [this]
    simp [flowSpec, add_assoc]

lemma flowSpec_bijective (f : Fin F → ℝ) (nets : List (ARNet D W F)) :
    Function.Bijective (fun x => (flowSpec f nets x).1) := by
  induction nets with
  | nil => exact Function.bijective_id
  | cons net nets ih => exact ih.comp (C82_step_bijective net f)

/-- **C82 (whole flow).** With flow parameters (`flow_params_dim > 0`) and positive variances,
sampling succeeds, the map from noise to sample is a bijection, and the returned log-likelihood is the
standard normal log-density of the noise, minus the log of the product of the standard deviations,
plus the corrections of the steps. -/
theorem C82_flow_partial (hF : 0 < F) (nets : List (ARNet D W F)) (f : Fin F → ℝ)
    (means vars : Fin D → ℝ) (hv : ∀ d, 0 < vars d) :
    ∃ g : (Fin D → ℝ) → (Fin D → ℝ) × ℝ,
      (∀ noise, samplesAndLlh nets f means vars false noise = .ok (g noise)) ∧
      Function.Bijective (fun noise => (g noise).1) ∧
      ∀ noise, (g noise).1 = (flowSpec f nets fun d => means d + Real.sqrt (vars d) * noise d).1 ∧
        (g noise).2 = ∑ d, (-(1 / 2) * noise d ^ 2 - 1 / 2 * Real.log (2 * Real.pi))
          - Real.log (∏ d, Real.sqrt (vars d))
          + (flowSpec f nets fun d => means d + Real.sqrt (vars d) * noise d).2 := by
  have hfold := flow_fold hF (D := D) (W := W) f
  have hbij := flowSpec_bijective (D := D) (W := W) f
  have hbase : Function.Bijective
      (fun noise : Fin D → ℝ => fun d => means d + Real.sqrt (vars d) * noise d) := by
    constructor
    · intro a b hab
      funext d
      exact mul_left_cancel₀ (Real.sqrt_pos.2 (hv d)).ne' (add_left_cancel (congrFun hab d))
    · intro y
      refine ⟨fun d => (y d - means d) / Real.sqrt (vars d), funext fun d => ?_⟩
      dsimp only
      rw [mul_div_cancel₀ _ (Real.sqrt_pos.2 (hv d)).ne']
      ring
  refine ⟨fun noise => ((flowSpec f nets fun d => means d + Real.sqrt (vars d) * noise d).1, _),
    fun noise => (if_neg (by simp)).trans (hfold nets _ _), (hbij nets).comp hbase, fun noise => ⟨rfl, ?_⟩⟩
  dsimp only
  congr 1
  rw [if_neg Bool.false_ne_true]
  rw [Real.log_prod (fun d _ => (Real.sqrt_pos.2 (hv d)).ne'), Finset.sum_sub_distrib,
    ← Finset.mul_sum]
  simp only [Real.log_sqrt (hv _).le, Finset.sum_const, Finset.card_univ, Fintype.card_fin,
    nsmul_eq_mul]
  rw [Finset.mul_sum (Finset.univ) (fun d => Real.log (vars d))]
  have : ∑ d, 1 / 2 * Real.log (vars d) = ∑ d, Real.log (vars d) / 2 :=
    Finset.sum_congr rfl fun d _ => by ring
  rw [this]
  ring

/-- **C82 fails without flow parameters**: a flow with at least one step and `flow_params_dim = 0`
raises `TypeError`, the network being called with two arguments. -/
theorem C82_no_flow_params_fails (net : ARNet D W 0) (nets : List (ARNet D W 0)) (f : Fin 0 → ℝ)
    (means vars noise : Fin D → ℝ) :
    samplesAndLlh (net :: nets) f means vars false noise = .error .typeError := by
  unfold samplesAndLlh
  rw [if_neg (by simp)]
  dsimp only
  rw [List.foldlM_cons]
  rfl

example : Function.Bijective (flowStep demoNet 0) := C82_step_bijective demoNet 0

-- the second coordinate of the image depends on the first input
example : flowStep demoNet 0 ![1, 0] 1 ≠ flowStep demoNet 0 ![2, 0] 1 := by
  simp [flowStep, arForward, arOut, maskedForward, Linear.forward, demoNet, hiddenForward,
    createMask, createFinalMask, sigmoid]
  norm_num

end Verif.Props
