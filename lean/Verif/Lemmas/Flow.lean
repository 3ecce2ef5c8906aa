import Verif.Lemmas.ProbLayers
import Verif.Props.Nnet
import Mathlib.MeasureTheory.Constructions.Polish.Basic
import Mathlib.MeasureTheory.Measure.Lebesgue.EqHaar
import Mathlib.MeasureTheory.Constructions.BorelSpace.WithTop

/-!
# Change of variables for triangular maps and for flows
-/

namespace Verif.Props

open Verif Nnet ProbLayers ProbLayersSpec MeasureTheory ProbabilityTheory

open scoped ENNReal

variable {D W F : ℕ}

lemma lintegral_affine (a s : ℝ) (hs : 0 < s) (h : ℝ → ℝ≥0∞) (hh : Measurable h) :
    ∫⁻ t, ENNReal.ofReal s * h (a + s * t) = ∫⁻ u, h u := by
  rw [lintegral_const_mul _ (by fun_prop)]
  have e : (fun t => h (a + s * t)) = fun t => (fun u => h (a + u)) (s * t) := rfl
  have key : ∫⁻ t, (fun u => h (a + u)) (s * t) = ENNReal.ofReal |s⁻¹| * ∫⁻ u, h (a + u) := by
    have hm : Measurable fun u => h (a + u) := by fun_prop
    rw [← lintegral_map (f := fun u => h (a + u)) (g := fun t => s * t) hm (by fun_prop),
      Real.map_volume_mul_left hs.ne', lintegral_smul_measure, smul_eq_mul]
  rw [e, key, ← mul_assoc, ← ENNReal.ofReal_mul hs.le, abs_of_pos (inv_pos.2 hs), mul_inv_cancel₀ hs.ne',
    ENNReal.ofReal_one, one_mul, lintegral_add_left_eq_self]

/-- Change of variables for a triangular map that is affine in its last coordinate. -/
lemma lintegral_triangular : ∀ (D : ℕ) (m s : Fin D → (Fin D → ℝ) → ℝ) (_ : ∀ d, Measurable (m d))
    (_ : ∀ d, Measurable (s d)) (_ : ∀ d x, 0 < s d x)
    (_ : ∀ d x y, (∀ j, j < d → x j = y j) → m d x = m d y ∧ s d x = s d y)
    (h : (Fin D → ℝ) → ℝ≥0∞) (_ : Measurable h),
    ∫⁻ x, (∏ d, ENNReal.ofReal (s d x)) * h (fun d => m d x + s d x * x d) = ∫⁻ y, h y := by
  intro D
  induction D with
  | zero =>
    intro m s _ _ _ _ h _
    refine lintegral_congr fun x => ?_
    rw [Finset.univ_eq_empty, Finset.prod_empty, one_mul]
    congr 1
    funext d
    exact d.elim0
  | succ n ih =>
    intro m s hm hs hpos hdep h hh
    let e := MeasurableEquiv.piFinSuccAbove (fun _ : Fin (n + 1) => ℝ) (Fin.last n)
    have he : MeasurePreserving e := volume_preserving_piFinSuccAbove (fun _ => ℝ) (Fin.last n)
    have hsymm : ∀ (t : ℝ) (x : Fin n → ℝ), e.symm (t, x) = (Fin.snoc x t : Fin (n + 1) → ℝ) := by
      intro t x
      change Fin.insertNth (α := fun _ => ℝ) (Fin.last n) t x = _
      rw [Fin.insertNth_last']
    have hsplit : ∀ g : (Fin (n + 1) → ℝ) → ℝ≥0∞, Measurable g →
        ∫⁻ x, g x = ∫⁻ x : Fin n → ℝ, ∫⁻ t : ℝ, g (Fin.snoc x t : Fin (n + 1) → ℝ) := by
      intro g hg
      have h1 : ∫⁻ x, g x = ∫⁻ p : ℝ × (Fin n → ℝ), g (e.symm p) := (he.symm.lintegral_comp hg).symm
      have hgm : Measurable fun p : ℝ × (Fin n → ℝ) => g (e.symm p) := hg.comp e.symm.measurable
      rw [h1, Measure.volume_eq_prod, lintegral_prod_symm _ hgm.aemeasurable]
      refine lintegral_congr fun x => lintegral_congr fun t => ?_
      rw [hsymm]
    have hsn : Measurable fun p : (Fin n → ℝ) × ℝ => (Fin.snoc p.1 p.2 : Fin (n + 1) → ℝ) := by
      have : (fun p : (Fin n → ℝ) × ℝ => (Fin.snoc p.1 p.2 : Fin (n + 1) → ℝ)) = fun p => e.symm (p.2, p.1) :=
        funext fun p => (hsymm _ _).symm
      rw [this]
      exact e.symm.measurable.comp (by fun_prop)
    have hsn0 : ∀ t : ℝ, Measurable fun x : Fin n → ℝ => (Fin.snoc x t : Fin (n + 1) → ℝ) := fun t =>
      hsn.comp (f := fun x => (x, t)) (by fun_prop)
    let m' : Fin n → (Fin n → ℝ) → ℝ := fun d x => m d.castSucc (Fin.snoc x 0 : Fin (n + 1) → ℝ)
    let s' : Fin n → (Fin n → ℝ) → ℝ := fun d x => s d.castSucc (Fin.snoc x 0 : Fin (n + 1) → ℝ)
    have hagree : ∀ (d : Fin (n + 1)) (x : Fin n → ℝ) (t : ℝ),
        m d (Fin.snoc x t : Fin (n + 1) → ℝ) = m d (Fin.snoc x 0 : Fin (n + 1) → ℝ) ∧
        s d (Fin.snoc x t : Fin (n + 1) → ℝ) = s d (Fin.snoc x 0 : Fin (n + 1) → ℝ) := by
      intro d x t
      refine hdep d _ _ fun j hj => ?_
      obtain ⟨k, rfl⟩ : ∃ k : Fin n, j = k.castSucc :=
        ⟨j.castPred (ne_of_lt (lt_of_lt_of_le hj (Fin.le_last d))), (Fin.castSucc_castPred _ _).symm⟩
      rw [Fin.snoc_castSucc (α := fun _ => ℝ), Fin.snoc_castSucc (α := fun _ => ℝ)]
    have hfun : ∀ (x : Fin n → ℝ) (t : ℝ),
        (fun d => m d (Fin.snoc x t : Fin (n + 1) → ℝ) + s d (Fin.snoc x t : Fin (n + 1) → ℝ) *
          (Fin.snoc x t : Fin (n + 1) → ℝ) d) =
        (Fin.snoc (fun d => m' d x + s' d x * x d)
          (m (Fin.last n) (Fin.snoc x 0 : Fin (n + 1) → ℝ) +
            s (Fin.last n) (Fin.snoc x 0 : Fin (n + 1) → ℝ) * t) : Fin (n + 1) → ℝ) := by
      intro x t
      funext d
      rw [(hagree d x t).1, (hagree d x t).2]
      refine Fin.lastCases ?_ (fun k => ?_) d
      · rw [Fin.snoc_last (α := fun _ => ℝ), Fin.snoc_last (α := fun _ => ℝ)]
      · rw [Fin.snoc_castSucc (α := fun _ => ℝ), Fin.snoc_castSucc (α := fun _ => ℝ)]
    have hm1 : Measurable fun x => fun d => m d x + s d x * x d :=
      measurable_pi_iff.2 fun d => (hm d).add ((hs d).mul (measurable_pi_apply d))
    have hp1 : Measurable fun x => ∏ d, ENNReal.ofReal (s d x) :=
      Finset.measurable_prod _ fun d _ => (hs d).ennreal_ofReal
    rw [hsplit (fun x => (∏ d, ENNReal.ofReal (s d x)) * h (fun d => m d x + s d x * x d))
      (hp1.mul (hh.comp hm1)), hsplit h hh]
    have hh' : Measurable fun x : Fin n → ℝ => ∫⁻ t : ℝ, h (Fin.snoc x t : Fin (n + 1) → ℝ) :=
      Measurable.lintegral_prod_right' (f := fun p : (Fin n → ℝ) × ℝ => h (Fin.snoc p.1 p.2 : Fin (n + 1) → ℝ))
        (hh.comp hsn)
    rw [← ih m' s' (fun d => (hm _).comp (hsn0 0)) (fun d => (hs _).comp (hsn0 0)) (fun d x => hpos _ _)
      (fun d x y hxy => hdep _ _ _ fun j hj => by
        obtain ⟨k, rfl⟩ : ∃ k : Fin n, j = k.castSucc :=
          ⟨j.castPred (ne_of_lt (lt_of_lt_of_le hj (Fin.le_last _))), (Fin.castSucc_castPred _ _).symm⟩
        rw [Fin.snoc_castSucc (α := fun _ => ℝ), Fin.snoc_castSucc (α := fun _ => ℝ)]
        exact hxy k (by simpa using hj)) _ hh']
    refine lintegral_congr fun x => ?_
    rw [← lintegral_affine (m (Fin.last n) (Fin.snoc x 0 : Fin (n + 1) → ℝ))
      (s (Fin.last n) (Fin.snoc x 0 : Fin (n + 1) → ℝ)) (hpos _ _)
      (fun u => h (Fin.snoc (fun d => m' d x + s' d x * x d) u : Fin (n + 1) → ℝ))
      (hh.comp (hsn.comp (f := fun u => ((fun d => m' d x + s' d x * x d), u)) (by fun_prop))),
      ← lintegral_const_mul]
    · refine lintegral_congr fun t => ?_
      rw [hfun, Fin.prod_univ_castSucc, ← mul_assoc, (hagree (Fin.last n) x t).2]
      congr 2
      exact Finset.prod_congr rfl fun d _ => by rw [(hagree d.castSucc x t).2]
    · refine Measurable.const_mul ?_ _
      exact hh.comp (hsn.comp (f := fun t => ((fun d => m' d x + s' d x * x d),
        m (Fin.last n) (Fin.snoc x 0 : Fin (n + 1) → ℝ) +
            s (Fin.last n) (Fin.snoc x 0 : Fin (n + 1) → ℝ) * t)) (by fun_prop))

/-! ## Measurability of the networks -/

lemma measurable_masked {i o : ℕ} (mask : Fin o → Fin i → ℝ) (l : Linear i o) {X : Type*} [MeasurableSpace X]
    (g : X → Fin i → ℝ) (hg : ∀ b, Measurable fun x => g x b) (a : Fin o) :
    Measurable fun x => maskedForward mask l (g x) a := by
  unfold maskedForward Linear.forward
  dsimp only
  exact (Finset.measurable_sum _ fun b _ => (hg b).const_mul _).add_const _

lemma measurable_hidden (act : ℝ → ℝ) (hact : Measurable act) {X : Type*} [MeasurableSpace X] :
    ∀ (ls : List (HiddenLayer W)) (conn : Fin W → ℕ) (g : X → Fin W → ℝ), (∀ b, Measurable fun x => g x b) →
    ∀ b, Measurable fun x => (hiddenForward act ls conn (g x)).1 b := by
  intro ls
  induction ls with
  | nil => intro conn g hg b; exact hg b
  | cons l ls ih =>
    intro conn g hg b
    exact ih l.conn (fun x a => act (maskedForward (createMask conn l.conn) l.lin (g x) a))
      (fun a => hact.comp (measurable_masked _ _ _ hg a)) b

lemma measurable_arForward (net : ARNet D W F) (hact : Measurable net.act) (f : Fin F → ℝ) (d : Fin D) :
    (Measurable fun x => (arForward net x f).1 d) ∧ Measurable fun x => (arForward net x f).2 d := by
  let h0 : (Fin D → ℝ) → Fin W → ℝ := fun x a => net.act
    (maskedForward (createMask (fun d : Fin D => d.val) net.conn0) net.lin0 x a
      + (if F = 0 then 0 else net.linF.forward f a))
  have hh0 : ∀ a, Measurable fun x => h0 x a := fun a =>
    hact.comp ((measurable_masked _ _ _ (fun b => measurable_pi_apply b) a).add_const _)
  have hh := measurable_hidden net.act hact net.rest net.conn0 h0 hh0
  have hc : ∀ x, (hiddenForward net.act net.rest net.conn0 (h0 x)).2 =
      (hiddenForward net.act net.rest net.conn0 (fun _ => 0)).2 := fun x => hiddenForward_conn _ _ _ _ _
  have hv : Measurable fun x => (arForward net x f).2 d := by
    have e : (fun x => (arForward net x f).2 d) = fun x => 1e-2 + sigmoid (maskedForward
        (createFinalMask (fun d : Fin D => d.val) (hiddenForward net.act net.rest net.conn0 (fun _ => 0)).2)
        net.logvar (hiddenForward net.act net.rest net.conn0 (h0 x)).1 d) := by
      funext x
      rw [← hc x]
      rfl
    rw [e]
    have hs : Measurable sigmoid := by
      unfold sigmoid
      fun_prop
    exact (hs.comp (measurable_masked _ _ _ hh d)).const_add _
  refine ⟨?_, hv⟩
  have e : (fun x => (arForward net x f).1 d) = fun x => (1 - (arForward net x f).2 d) * maskedForward
      (createFinalMask (fun d : Fin D => d.val) (hiddenForward net.act net.rest net.conn0 (fun _ => 0)).2)
      net.mean (hiddenForward net.act net.rest net.conn0 (h0 x)).1 d := by
    funext x
    rw [← hc x]
    rfl
  rw [e]
  exact (hv.const_sub _).mul (measurable_masked _ _ _ hh d)

lemma measurable_flowStep (net : ARNet D W F) (hact : Measurable net.act) (f : Fin F → ℝ) :
    Measurable (flowStep net f) := by
  refine measurable_pi_iff.2 fun d => ?_
  obtain ⟨h1, h2⟩ := measurable_arForward net hact f d
  unfold flowStep
  exact h1.add (h2.sqrt.mul (measurable_pi_apply d))

lemma measurable_flowCorrection (net : ARNet D W F) (hact : Measurable net.act) (f : Fin F → ℝ) :
    Measurable (flowCorrection net f) := by
  unfold flowCorrection
  exact (Finset.measurable_sum _ fun d _ => ((measurable_arForward net hact f d).2).log).const_mul _

lemma measurable_flowSpec (f : Fin F → ℝ) : ∀ (nets : List (ARNet D W F)) (_ : ∀ net ∈ nets, Measurable net.act),
    (Measurable fun x => (flowSpec f nets x).1) ∧ Measurable fun x => (flowSpec f nets x).2 := by
  intro nets
  induction nets with
  | nil => intro _; exact ⟨measurable_id, measurable_const⟩
  | cons net nets ih =>
    intro hact
    obtain ⟨h1, h2⟩ := ih fun n hn => hact n (List.mem_cons_of_mem _ hn)
    have h3 := measurable_flowStep net (hact net List.mem_cons_self) f
    exact ⟨h1.comp h3, (measurable_flowCorrection net (hact net List.mem_cons_self) f).add (h2.comp h3)⟩

/-! ## Flows -/

lemma lintegral_flowStep (net : ARNet D W F) (hact : Measurable net.act) (f : Fin F → ℝ)
    (h : (Fin D → ℝ) → ℝ≥0∞) (hh : Measurable h) :
    ∫⁻ x, ENNReal.ofReal (Real.exp (-flowCorrection net f x)) * h (flowStep net f x) = ∫⁻ y, h y := by
  rw [← lintegral_triangular D (fun d x => (arForward net x f).1 d) (fun d x => Real.sqrt ((arForward net x f).2 d))
    (fun d => (measurable_arForward net hact f d).1) (fun d => (measurable_arForward net hact f d).2.sqrt)
    (fun d x => Real.sqrt_pos.2 (variance_pos net f x d))
    (fun d x y hxy => by
      obtain ⟨h1, h2⟩ := C66_autoregressive net f x y d hxy
      exact ⟨h1, congrArg Real.sqrt h2⟩) h hh]
  refine lintegral_congr fun x => ?_
  congr 1
  rw [← ENNReal.ofReal_prod_of_nonneg fun d _ => Real.sqrt_nonneg _]
  congr 1
  unfold flowCorrection
  rw [← Real.exp_log (Finset.prod_pos fun d _ => Real.sqrt_pos.2 (variance_pos net f x d)),
    Real.log_prod (fun d _ => (Real.sqrt_pos.2 (variance_pos net f x d)).ne')]
  congr 1
  simp only [Real.log_sqrt (variance_pos net f x _).le]
  rw [← Finset.sum_div]
  ring

lemma lintegral_flow (f : Fin F → ℝ) : ∀ (nets : List (ARNet D W F)) (_ : ∀ net ∈ nets, Measurable net.act)
    (h : (Fin D → ℝ) → ℝ≥0∞) (_ : Measurable h),
    ∫⁻ x, ENNReal.ofReal (Real.exp (-(flowSpec f nets x).2)) * h (flowSpec f nets x).1 = ∫⁻ y, h y := by
  intro nets
  induction nets with
  | nil =>
    intro _ h _
    refine lintegral_congr fun x => ?_
    simp [flowSpec]
  | cons net nets ih =>
    intro hact h hh
    have hn : ∀ n ∈ nets, Measurable n.act := fun n hn => hact n (List.mem_cons_of_mem _ hn)
    obtain ⟨h1, h2⟩ := measurable_flowSpec f nets hn
    rw [← ih hn h hh, ← lintegral_flowStep net (hact net List.mem_cons_self) f
      (fun x => ENNReal.ofReal (Real.exp (-(flowSpec f nets x).2)) * h (flowSpec f nets x).1)
      (h2.neg.exp.ennreal_ofReal.mul (hh.comp h1))]
    refine lintegral_congr fun x => ?_
    rw [← mul_assoc, ← ENNReal.ofReal_mul (Real.exp_nonneg _), ← Real.exp_add]
    simp only [flowSpec]
    congr 3
    ring

end Verif.Props
