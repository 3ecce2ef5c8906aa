import Mathlib.Tactic.Linarith
import Mathlib.Tactic.FieldSimp
import Mathlib.Tactic.Ring
import Mathlib.Tactic.Positivity
import Mathlib.Tactic.NormNum
import Verif.Model.TrainOpts

/-!
# C139: options of the training of subspace models
-/

namespace Verif.Props

open Verif TrainOpts

variable {ι β C : Type} [Fintype ι]

/-! ## Specification -/

/-- The gradient without the frozen blocks. -/
noncomputable def freeGrad (t : Task ι β C) (o : Opts β) (n : ℕ) (s : TState ι C) (i : ι) : ℝ :=
  if o.skip (t.block i) then 0 else t.gradient n (fun j => (s.cells j).val) s.conj i

/-- The Euclidean norm. -/
noncomputable def eNorm (g : ι → ℝ) : ℝ := √(∑ i, g i ^ 2)

/-- The gradient after clipping. -/
noncomputable def usedGrad (t : Task ι β C) (o : Opts β) (n : ℕ) (s : TState ι C) (i : ι) : ℝ :=
  if 0 < o.clip then freeGrad t o n s i * min 1 (o.clip / (eNorm (freeGrad t o n s) + 1 / 10 ^ 6))
  else freeGrad t o n s i

/-! ## An epoch -/

theorem epoch_grads (t : Task ι β C) (o : Opts β) (n : ℕ) (s : TState ι C) (i : ι) :
    (freeze t o (backward t n (initStep o s))).cells i =
      ⟨(s.cells i).val, if o.skip (t.block i) && o.toNone then none else some (freeGrad t o n s i),
        (s.cells i).state⟩ := by
  have hv : ∀ j, (zeroGrad o.toNone (s.cells j)).val = (s.cells j).val := by
    intro j
    unfold zeroGrad
    split <;> rfl
  have hb : (backward t n (initStep o s)).cells i =
      ⟨(s.cells i).val, some (t.gradient n (fun j => (s.cells j).val) s.conj i), (s.cells i).state⟩ := by
    unfold backward initStep addGrad
    dsimp only
    simp only [hv]
    unfold zeroGrad
    split
    · simp
    · cases (s.cells i).grad <;> simp
  unfold freeze
  dsimp only
  rw [hb]
  unfold freeGrad zeroGrad
  by_cases h1 : o.skip (t.block i) <;> by_cases h2 : o.toNone <;> simp [h1, h2]

theorem epoch_clipped (t : Task ι β C) (o : Opts β) (n : ℕ) (s : TState ι C) (i : ι) :
    (clip o (freeze t o (backward t n (initStep o s)))).cells i =
      ⟨(s.cells i).val, if o.skip (t.block i) && o.toNone then none else some (usedGrad t o n s i),
        (s.cells i).state⟩ := by
  unfold clip usedGrad
  by_cases hc : o.clip > 0
  · rw [if_pos hc, if_pos hc]
    have hn : gradNorm (freeze t o (backward t n (initStep o s))).cells = eNorm (freeGrad t o n s) := by
      unfold gradNorm eNorm
      congr 1
      refine Finset.sum_congr rfl fun j _ => ?_
      rw [epoch_grads]
      dsimp only
      by_cases h : o.skip (t.block j) && o.toNone
      · rw [if_pos h]
        have : o.skip (t.block j) = true := by
          rw [Bool.and_eq_true] at h
          exact h.1
        unfold freeGrad
        rw [if_pos this]
        rfl
      · rw [if_neg h]
        rfl
    unfold clipGrads
    dsimp only
    rw [hn, epoch_grads]
    dsimp only
    congr 1
    split <;> rfl
  · rw [if_neg hc, if_neg hc, epoch_grads]

theorem epoch_cell (t : Task ι β C) (o : Opts β) (n : ℕ) (s : TState ι C) (i : ι) :
    (epoch t o n s).cells i =
      (if o.sgd then sgdStep s.lrStd else adamStep s.lrStd)
        ⟨(s.cells i).val, if o.skip (t.block i) && o.toNone then none else some (usedGrad t o n s i),
          (s.cells i).state⟩ := by
  have hl : (clip o (freeze t o (backward t n (initStep o s)))).lrStd = s.lrStd := by
    unfold clip
    split <;> rfl
  unfold epoch optStep
  dsimp only
  rw [hl, epoch_clipped]
  split <;> rfl

theorem epoch_rest (t : Task ι β C) (o : Opts β) (n : ℕ) (s : TState ι C) :
    (epoch t o n s).lrStd = s.lrStd ∧ (epoch t o n s).lrCjg = s.lrCjg ∧
    (epoch t o n s).updateCount = s.updateCount + 1 ∧
    (epoch t o n s).conj = if o.skipCjg then s.conj
      else t.update n (fun j => (s.cells j).val) s.lrCjg s.updateCount s.conj := by
  have h : ∀ s' : TState ι C, (clip o s').lrStd = s'.lrStd ∧ (clip o s').lrCjg = s'.lrCjg ∧
      (clip o s').updateCount = s'.updateCount ∧ (clip o s').conj = s'.conj := by
    intro s'
    unfold clip
    split <;> exact ⟨rfl, rfl, rfl, rfl⟩
  obtain ⟨h1, h2, h3, h4⟩ := h (freeze t o (backward t n (initStep o s)))
  unfold epoch optStep
  dsimp only
  rw [h1, h2, h3, h4]
  exact ⟨rfl, rfl, rfl, rfl⟩

/-- With SGD an epoch subtracts the rate times the gradient of this epoch, without frozen blocks and clipped; nothing of
the gradients of other epochs. -/
theorem C139_sgd (t : Task ι β C) (o : Opts β) (ho : o.sgd = true) (n : ℕ) (s : TState ι C) (i : ι) :
    ((epoch t o n s).cells i).val = (s.cells i).val - s.lrStd * usedGrad t o n s i := by
  rw [epoch_cell, if_pos ho]
  unfold sgdStep
  by_cases h : o.skip (t.block i) && o.toNone
  · rw [if_pos h]
    have : o.skip (t.block i) = true := by
      rw [Bool.and_eq_true] at h
      exact h.1
    have h0 : usedGrad t o n s i = 0 := by
      unfold usedGrad freeGrad
      rw [if_pos this]
      simp
    simp [h0]
  · rw [if_neg h]

theorem eNorm_scale (g : ι → ℝ) (c : ℝ) (hc : 0 ≤ c) : eNorm (fun i => g i * c) = eNorm g * c := by
  unfold eNorm
  simp only [mul_pow]
  rw [← Finset.sum_mul, Real.sqrt_mul (Finset.sum_nonneg fun i _ => sq_nonneg _), Real.sqrt_sq hc]

/-- Clipping keeps the direction of the gradient, bounds its norm by the option, and does nothing to gradients below
it; with zero or a negative value it does nothing. -/
theorem C139_clip (t : Task ι β C) (o : Opts β) (n : ℕ) (s : TState ι C) :
    (o.clip ≤ 0 → usedGrad t o n s = freeGrad t o n s) ∧
    (0 < o.clip → ∃ c, 0 < c ∧ c ≤ 1 ∧ (∀ i, usedGrad t o n s i = freeGrad t o n s i * c) ∧
      eNorm (usedGrad t o n s) ≤ o.clip ∧
      (eNorm (freeGrad t o n s) + 1 / 10 ^ 6 ≤ o.clip → c = 1) ∧
      (o.clip ≤ eNorm (freeGrad t o n s) → o.clip - 1 / 10 ^ 6 ≤ eNorm (usedGrad t o n s))) := by
  constructor
  · intro h
    funext i
    unfold usedGrad
    rw [if_neg (not_lt.2 h)]
  · intro h
    have hN : 0 ≤ eNorm (freeGrad t o n s) := Real.sqrt_nonneg _
    set N := eNorm (freeGrad t o n s) with hNdef
    have hp : 0 < N + 1 / 10 ^ 6 := by positivity
    have hq : 0 < o.clip / (N + 1 / 10 ^ 6) := div_pos h hp
    have hu : usedGrad t o n s = fun i => freeGrad t o n s i * min 1 (o.clip / (N + 1 / 10 ^ 6)) := by
      funext i
      unfold usedGrad
      rw [if_pos h]
    have hn : eNorm (usedGrad t o n s) = N * min 1 (o.clip / (N + 1 / 10 ^ 6)) := by
      rw [hu, eNorm_scale _ _ (le_min (by norm_num) hq.le)]
    refine ⟨min 1 (o.clip / (N + 1 / 10 ^ 6)), lt_min one_pos hq, min_le_left _ _, fun i => by rw [hu], ?_, ?_, ?_⟩
    · rw [hn]
      calc N * min 1 (o.clip / (N + 1 / 10 ^ 6)) ≤ (N + 1 / 10 ^ 6) * (o.clip / (N + 1 / 10 ^ 6)) :=
            mul_le_mul (by linarith [show (0 : ℝ) < 1 / 10 ^ 6 by norm_num]) (min_le_right _ _)
              (le_min (by norm_num) hq.le) hp.le
        _ = o.clip := by field_simp
    · intro hle
      rw [min_eq_left]
      rwa [le_div_iff₀ hp, one_mul]
    · intro hle
      rw [hn, min_eq_right]
      · have e : N * (o.clip / (N + 1 / 10 ^ 6)) = o.clip - o.clip / (N + 1 / 10 ^ 6) * (1 / 10 ^ 6) := by
          field_simp
          ring
        rw [e]
        have : o.clip / (N + 1 / 10 ^ 6) ≤ 1 := by
          rw [div_le_one hp]
          linarith [show (0 : ℝ) < 1 / 10 ^ 6 by norm_num]
        nlinarith [show (0 : ℝ) < 1 / 10 ^ 6 by norm_num]
      · rw [div_le_one hp]
        linarith [show (0 : ℝ) < 1 / 10 ^ 6 by norm_num]

/-! ## Frozen blocks -/

theorem usedGrad_frozen (t : Task ι β C) (o : Opts β) (n : ℕ) (s : TState ι C) (i : ι)
    (hi : o.skip (t.block i) = true) : usedGrad t o n s i = 0 := by
  unfold usedGrad freeGrad
  rw [if_pos hi]
  simp

theorem epochs_lr (t : Task ι β C) (o : Opts β) : ∀ (k n : ℕ) (s : TState ι C),
    (epochs t o n k s).lrStd = s.lrStd ∧ (epochs t o n k s).lrCjg = s.lrCjg ∧
      (epochs t o n k s).updateCount = s.updateCount + k
  | 0, _, _ => ⟨rfl, rfl, rfl⟩
  | k + 1, n, s => by
    obtain ⟨h1, h2, h3⟩ := epochs_lr t o k (n + 1) (epoch t o n s)
    obtain ⟨e1, e2, e3, -⟩ := epoch_rest t o n s
    unfold epochs
    exact ⟨h1.trans e1, h2.trans e2, by rw [h3, e3]; ring⟩

/-- The options that freeze a block keep all its values over any number of epochs: with SGD; with Adam, if torch removes
gradients (`set_to_none`), or if the block had no momentum, as with new optimizers. -/
theorem C139_frozen_partial (t : Task ι β C) (o : Opts β) (i : ι) (hi : o.skip (t.block i) = true) (k : ℕ) :
    ∀ (n : ℕ) (s : TState ι C), (o.sgd = true ∨ o.toNone = true ∨ (s.cells i).state.m = 0) →
      ((epochs t o n k s).cells i).val = (s.cells i).val := by
  induction k with
  | zero => intro n s _; rfl
  | succ k ih =>
    intro n s h
    unfold epochs
    have key : ((epoch t o n s).cells i).val = (s.cells i).val ∧
        (o.sgd = true ∨ o.toNone = true ∨ ((epoch t o n s).cells i).state.m = 0) := by
      rw [epoch_cell, usedGrad_frozen t o n s i hi, hi, Bool.true_and]
      by_cases h1 : o.sgd = true
      · rw [if_pos h1]
        refine ⟨?_, .inl h1⟩
        unfold sgdStep
        cases o.toNone <;> simp
      · rw [if_neg h1]
        by_cases h2 : o.toNone = true
        · rw [if_pos h2]
          exact ⟨rfl, .inr (.inl h2)⟩
        · rw [if_neg h2]
          have h3 := (h.resolve_left h1).resolve_left h2
          unfold adamStep
          dsimp only
          rw [h3]
          refine ⟨by simp, .inr (.inr (by simp))⟩
    rw [ih (n + 1) (epoch t o n s) key.2, key.1]

/-- The conjugate parameters too are kept when they are not given to the optimizer. -/
theorem C139_frozen_conjugate (t : Task ι β C) (o : Opts β) (ho : o.skipCjg = true) : ∀ (k n : ℕ) (s : TState ι C),
    (epochs t o n k s).conj = s.conj
  | 0, _, _ => rfl
  | k + 1, n, s => by
    unfold epochs
    rw [C139_frozen_conjugate t o ho k (n + 1), (epoch_rest t o n s).2.2.2, if_pos ho]

theorem one_sub_pow_pos (a : ℝ) (h0 : 0 ≤ a) (h1 : a < 1) (n : ℕ) : 0 < 1 - a ^ (n + 1) := by
  have := pow_lt_one₀ h0 h1 (n := n + 1) (by omega)
  linarith

/-- Adam with gradients set to zero moves a frozen parameter exactly when it has momentum. -/
theorem C139_frozen_moves (t : Task ι β C) (o : Opts β) (ho : o.sgd = false) (hz : o.toNone = false) (n : ℕ)
    (s : TState ι C) (hl : s.lrStd ≠ 0) (i : ι) (hi : o.skip (t.block i) = true) :
    ((epoch t o n s).cells i).val = (s.cells i).val ↔ (s.cells i).state.m = 0 := by
  rw [epoch_cell, usedGrad_frozen t o n s i hi, hi, hz, ho]
  simp only [Bool.and_false, Bool.false_eq_true, if_false]
  unfold adamStep
  dsimp only
  have hp := one_sub_pow_pos (9 / 10) (by norm_num) (by norm_num) (s.cells i).state.step
  have hd : 0 < √((999 / 1000 * (s.cells i).state.v + 1 / 1000 * 0 ^ 2) /
      (1 - (999 / 1000) ^ ((s.cells i).state.step + 1))) + 1 / 10 ^ 8 := by positivity
  constructor
  · intro h
    have h0 : s.lrStd * ((9 / 10 * (s.cells i).state.m + 1 / 10 * 0) /
        (1 - (9 / 10) ^ ((s.cells i).state.step + 1))) /
        (√((999 / 1000 * (s.cells i).state.v + 1 / 1000 * 0 ^ 2) /
          (1 - (999 / 1000) ^ ((s.cells i).state.step + 1))) + 1 / 10 ^ 8) = 0 := by linarith
    rw [div_eq_zero_iff, mul_eq_zero, div_eq_zero_iff] at h0
    rcases h0 with (h0 | h0 | h0) | h0
    · exact absurd h0 hl
    · linarith
    · exact absurd h0 hp.ne'
    · exact absurd h0 hd.ne'
  · intro h
    rw [h]
    simp

/-! ## Saving and loading the optimizers -/

/-- States that differ in the gradients only. -/
def SameUpToGrads (s s' : TState ι C) : Prop :=
  (∀ i, (s.cells i).val = (s'.cells i).val ∧ (s.cells i).state = (s'.cells i).state) ∧ s.lrStd = s'.lrStd ∧
    s.conj = s'.conj ∧ s.lrCjg = s'.lrCjg ∧ s.updateCount = s'.updateCount

theorem epoch_congr (t : Task ι β C) (o : Opts β) (n : ℕ) (s s' : TState ι C) (h : SameUpToGrads s s') :
    epoch t o n s = epoch t o n s' := by
  obtain ⟨h1, h2, h3, h4, h5⟩ := h
  have hv : (fun j => (s.cells j).val) = fun j => (s'.cells j).val := funext fun j => (h1 j).1
  have hf : freeGrad t o n s = freeGrad t o n s' := by
    funext i
    unfold freeGrad
    rw [hv, h3]
  have hu : usedGrad t o n s = usedGrad t o n s' := by
    funext i
    unfold usedGrad
    rw [hf]
  have hc : (epoch t o n s).cells = (epoch t o n s').cells := by
    funext i
    rw [epoch_cell, epoch_cell, hu, h2, (h1 i).1, (h1 i).2]
  obtain ⟨e1, e2, e3, e4⟩ := epoch_rest t o n s
  obtain ⟨f1, f2, f3, f4⟩ := epoch_rest t o n s'
  have k1 : (epoch t o n s).lrStd = (epoch t o n s').lrStd := by rw [e1, f1, h2]
  have k2 : (epoch t o n s).lrCjg = (epoch t o n s').lrCjg := by rw [e2, f2, h4]
  have k3 : (epoch t o n s).updateCount = (epoch t o n s').updateCount := by rw [e3, f3, h5]
  have k4 : (epoch t o n s).conj = (epoch t o n s').conj := by rw [e4, f4, hv, h3, h4, h5]
  cases hx : epoch t o n s with
  | mk c1 c2 c3 c4 c5 =>
    cases hy : epoch t o n s' with
    | mk d1 d2 d3 d4 d5 =>
      rw [hx, hy] at hc k1 k2 k3 k4
      dsimp only at hc k1 k2 k3 k4
      rw [hc, k1, k2, k3, k4]

theorem epochs_add (t : Task ι β C) (o : Opts β) : ∀ (k l n : ℕ) (s : TState ι C),
    epochs t o n (k + l) s = epochs t o (n + k) l (epochs t o n k s)
  | 0, l, n, s => by simp [epochs]
  | k + 1, l, n, s => by
    have e : k + 1 + l = (k + l) + 1 := by ring
    rw [e]
    show epochs t o (n + 1) (k + l) (epoch t o n s) = epochs t o (n + (k + 1)) l (epochs t o (n + 1) k (epoch t o n s))
    rw [epochs_add t o k l (n + 1) (epoch t o n s)]
    have e2 : n + 1 + k = n + (k + 1) := by ring
    rw [e2]

/-- Training, saving and training on is the same as training in one go: values, momentum, conjugate parameters and the
turn of the groups. The rates given when resuming do not matter. -/
theorem C139_resume {N : ℕ} (t : Task (Fin N) β C) (o o' : Opts β)
    (ho' : o' = { o with lrStd := o'.lrStd, lrCjg := o'.lrCjg }) (n : ℕ) (k l : ℤ) (hk : 0 < k) (hl : 0 < l)
    (vals : Fin N → ℝ) (conj : C) :
    ∃ s1, command t o none n k vals conj = .ok s1 ∧
      command t o' (some (save s1)) (n + k.toNat) l (fun i => (s1.cells i).val) s1.conj =
        command t o none n (k + l) vals conj := by
  refine ⟨epochs t o n k.toNat (start o vals conj), ?_, ?_⟩
  · unfold command trainLoop
    dsimp only
    rw [if_neg (by omega)]
  · set s1 := epochs t o n k.toNat (start o vals conj) with hs1
    have hstart : ∃ s0, load (save s1) (start o' (fun i => (s1.cells i).val) s1.conj) = .ok s0 ∧
        SameUpToGrads s0 s1 := by
      unfold load
      rw [if_neg (by simp [save])]
      refine ⟨_, rfl, fun i => ⟨rfl, ?_⟩, rfl, rfl, rfl, rfl⟩
      unfold save
      dsimp only
      rw [dif_pos i.2]
    obtain ⟨s0, h0, h1⟩ := hstart
    unfold command
    dsimp only
    rw [h0]
    unfold trainLoop
    dsimp only
    rw [if_neg (by omega), if_neg (by omega)]
    have e : (k + l).toNat = k.toNat + l.toNat := by omega
    rw [e, epochs_add, ← hs1]
    obtain ⟨m, hm⟩ : ∃ m, l.toNat = m + 1 := ⟨l.toNat - 1, by omega⟩
    rw [hm]
    have hsame : ∀ (m n : ℕ) (s : TState (Fin N) C), epochs t o' n m s = epochs t o n m s := by
      intro m
      induction m with
      | zero => intro n s; rfl
      | succ m ih =>
        intro n s
        unfold epochs
        rw [ih]
        congr 1
        rw [ho']
        rfl
    rw [hsame]
    unfold epochs
    rw [epoch_congr t o _ s0 s1 h1]

/-- The violation: when a state is loaded, the rates of the command line have no effect; those of the saved run are used
for all the epochs. -/
theorem C139_rates_ignored {N : ℕ} (t : Task (Fin N) β C) (o : Opts β) (d : Saved) (hd : d.size = N) (a b : ℝ)
    (n : ℕ) (k : ℤ) (hk : 0 < k) (vals : Fin N → ℝ) (conj : C) :
    command t { o with lrStd := a, lrCjg := b } (some d) n k vals conj = command t o (some d) n k vals conj ∧
    ∃ s, command t o (some d) n k vals conj = .ok s ∧ s.lrStd = d.lrStd ∧ s.lrCjg = d.lrCjg := by
  have hsame : ∀ (m n : ℕ) (s : TState (Fin N) C),
      epochs t { o with lrStd := a, lrCjg := b } n m s = epochs t o n m s := by
    intro m
    induction m with
    | zero => intro n s; rfl
    | succ m ih =>
      intro n s
      unfold epochs
      rw [ih]
      rfl
  have hl : ∀ o : Opts β, command t o (some d) n k vals conj = .ok (epochs t o n k.toNat
      ⟨fun i => ⟨vals i, none, d.states i.1⟩, d.lrStd, conj, d.lrCjg, d.updateCount⟩) := by
    intro o
    unfold command load trainLoop
    dsimp only
    rw [if_neg (by simpa using hd)]
    dsimp only
    rw [if_neg (by omega)]
    rfl
  rw [hl, hl, hsame]
  exact ⟨rfl, _, rfl, (epochs_lr t o _ _ _).1, (epochs_lr t o _ _ _).2.1⟩

/-- Runs that stop: no epochs; a state for another number of parameters, as with `shmm train -p` after a run without
`-p` or the other way round; `VBOptimizer.load_state`. -/
theorem C139_errors {N : ℕ} (t : Task (Fin N) β C) (o : Opts β) (n : ℕ) (vals : Fin N → ℝ) (conj : C) :
    (∀ k ≤ 0, command t o none n k vals conj = .error .nameError) ∧
    (∀ d k, d.size = N → k ≤ 0 → command t o (some d) n k vals conj = .error .nameError) ∧
    (∀ d k, d.size ≠ N → command t o (some d) n k vals conj = .error .valueError) ∧
    (∀ posts gsm, 0 < gsm → shmmSize true posts gsm ≠ shmmSize false posts gsm) ∧
    ∀ path, loadState path = .error .nameError := by
  refine ⟨fun k hk => ?_, fun d k hd hk => ?_, fun d k hd => ?_, fun posts gsm h => ?_, fun _ => rfl⟩
  · unfold command trainLoop
    dsimp only
    rw [if_pos hk]
  · unfold command load trainLoop
    dsimp only
    rw [if_neg (by simpa using hd)]
    dsimp only
    rw [if_pos hk]
  · unfold command load
    dsimp only
    rw [if_pos hd]
  · unfold shmmSize
    simp
    omega

/-! ## Examples -/

/-- One parameter with gradient one. -/
def demoTask : Task (Fin 1) Bool ℕ := ⟨fun _ => true, fun _ _ _ _ => 1, fun _ _ _ _ c => c + 1⟩

noncomputable def demoOpts (frozen sgd : Bool) (cl : ℝ) : Opts Bool := ⟨sgd, false, fun _ => frozen, frozen, cl, 1, 1⟩

/-- The violation: an option that freezes a block is given when training is resumed with Adam; the block had momentum and
its parameters move. -/
theorem C139_frozen_fails : ∃ s1 s2, command demoTask (demoOpts false false 0) none 0 1 (fun _ => 0) 0 = .ok s1 ∧
    command demoTask (demoOpts true false 0) (some (save s1)) 1 1 (fun i => (s1.cells i).val) s1.conj = .ok s2 ∧
    (s2.cells 0).val ≠ (s1.cells 0).val := by
  have hm : ((epoch demoTask (demoOpts false false 0) 0 (start (demoOpts false false 0) (fun _ => 0) 0)).cells 0).state.m
      = 1 / 10 := by
    rw [epoch_cell]
    have hu : usedGrad demoTask (demoOpts false false 0) 0 (start (demoOpts false false 0) (fun _ => 0) 0) 0 = 1 := by
      unfold usedGrad freeGrad
      simp [demoOpts, demoTask]
    rw [hu]
    simp [demoOpts, adamStep, start, AdamState.fresh]
  refine ⟨epoch demoTask (demoOpts false false 0) 0 (start (demoOpts false false 0) (fun _ => 0) 0), ?_⟩
  set s1 := epoch demoTask (demoOpts false false 0) 0 (start (demoOpts false false 0) (fun _ => 0) 0) with hs1
  have h0 : load (save s1) (start (demoOpts true false 0) (fun i => (s1.cells i).val) s1.conj) =
      .ok ⟨fun i => ⟨(s1.cells i).val, none, (save s1).states i.1⟩, (save s1).lrStd, s1.conj, (save s1).lrCjg,
        (save s1).updateCount⟩ := by
    unfold load
    rw [if_neg (by simp [save])]
    rfl
  set s0 : TState (Fin 1) ℕ := ⟨fun i => ⟨(s1.cells i).val, none, (save s1).states i.1⟩, (save s1).lrStd, s1.conj,
    (save s1).lrCjg, (save s1).updateCount⟩ with hs0
  refine ⟨epoch demoTask (demoOpts true false 0) 1 s0, rfl, ?_, ?_⟩
  · unfold command
    dsimp only
    rw [h0]
    rfl
  · have hmv := C139_frozen_moves demoTask (demoOpts true false 0) rfl rfl 1 s0
      (by
        show s1.lrStd ≠ 0
        rw [hs1, (epoch_rest _ _ _ _).1]
        simp [start, demoOpts]) 0 rfl
    intro h
    have h1 : (s0.cells 0).state.m = 0 := hmv.1 h
    have h2 : (s0.cells 0).state = (s1.cells 0).state := by
      show (save s1).states 0 = _
      unfold save
      simp
    rw [h2, hm] at h1
    norm_num at h1

example : ((epoch demoTask (demoOpts false true 0) 0 (start (demoOpts false true 0) (fun _ => 5) 0)).cells 0).val =
    4 := by
  rw [C139_sgd _ _ rfl]
  simp [usedGrad, freeGrad, demoOpts, demoTask, start]
  norm_num

/-- The gradient 1 is clipped to a norm of at most 1/2. -/
example : eNorm (usedGrad demoTask (demoOpts false true (1 / 2)) 0 (start (demoOpts false true (1 / 2)) (fun _ => 5) 0))
    ≤ 1 / 2 := by
  obtain ⟨c, -, -, -, h, -⟩ := (C139_clip demoTask (demoOpts false true (1 / 2)) 0
    (start (demoOpts false true (1 / 2)) (fun _ => 5) 0)).2 (by norm_num [demoOpts])
  exact h

/-- New optimizers: a frozen parameter stays, also with Adam. -/
example : ((epochs demoTask (demoOpts true false 0) 0 10 (start (demoOpts true false 0) (fun _ => 5) 0)).cells 0).val =
    5 :=
  C139_frozen_partial demoTask (demoOpts true false 0) 0 rfl 10 0 _ (.inr (.inr rfl))

example : (epochs demoTask (demoOpts true false 0) 0 10 (start (demoOpts true false 0) (fun _ => 5) 3)).conj = 3 :=
  C139_frozen_conjugate _ _ rfl _ _ _

example : ∃ s1, command demoTask (demoOpts false false 0) none 0 2 (fun _ => 0) 0 = .ok s1 ∧
    command demoTask { demoOpts false false 0 with lrStd := 7 } (some (save s1)) 2 3 (fun i => (s1.cells i).val) s1.conj =
      command demoTask (demoOpts false false 0) none 0 5 (fun _ => 0) 0 :=
  C139_resume demoTask (demoOpts false false 0) { demoOpts false false 0 with lrStd := 7 } rfl 0 2 3 (by norm_num)
    (by norm_num) _ _

example : command demoTask (demoOpts false false 0) none 0 0 (fun _ => 0) 0 = .error .nameError :=
  (C139_errors demoTask _ 0 _ _).1 0 (le_refl 0)

example : shmmSize true 4 6 = 4 ∧ shmmSize false 4 6 = 10 := by decide

end Verif.Props
