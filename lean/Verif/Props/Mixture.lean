import Verif.Spec.Mixture
import Verif.Props.DistsUpdate
import Verif.Props.KL
import Mathlib.Analysis.SpecialFunctions.Log.Basic
import Mathlib.Tactic.Linarith

/-!
# C44: mixtures and sets of mixtures
-/

namespace Verif.Props

open Real Verif.Mixture Verif.Dists Verif.DistSpec

section

variable {K : ℕ}

theorem sumExp_pos (hK : 0 < K) (w : Fin K → ℝ) : 0 < ∑ k, exp (w k) :=
  Finset.sum_pos (fun k _ => exp_pos _) ⟨⟨0, hK⟩, Finset.mem_univ _⟩

/-- C44: the responsibilities of a frame are positive and sum to one. -/
theorem C44_responsibilities (hK : 0 < K) (lw llh : Fin K → ℝ) :
    IsResps (mixLocal lw llh).resps ∧ ∀ k, 0 < (mixLocal lw llh).resps k := by
  have hp := sumExp_pos hK fun k => llh k + lw k
  refine ⟨⟨fun k => (exp_pos _).le, ?_⟩, fun k => exp_pos _⟩
  simp only [mixLocal, exp_sub, exp_log hp]
  rw [← Finset.sum_div, div_self hp.ne']

/-- C44: the value returned is the log of the weighted sum of the component likelihoods. -/
theorem C44_value (hK : 0 < K) (lw llh : Fin K → ℝ) :
    (mixLocal lw llh).value = log (∑ k, exp (lw k) * exp (llh k)) := by
  have h1 := (C44_responsibilities hK lw llh).1.2
  simp only [mixLocal, localKl] at h1 ⊢
  rw [← Finset.sum_sub_distrib]
  have e : ∑ k, exp (lw k) * exp (llh k) = ∑ k, exp (llh k + lw k) :=
    Finset.sum_congr rfl fun k _ => by rw [exp_add, mul_comm]
  rw [e]
  generalize log (∑ k, exp (llh k + lw k)) = L at h1 ⊢
  have : ∀ k, llh k * exp (llh k + lw k - L) -
      exp (llh k + lw k - L) * (llh k + lw k - L - lw k) = exp (llh k + lw k - L) * L := by
    intro k; ring
  rw [Finset.sum_congr rfl fun k _ => this k, ← Finset.sum_mul, h1, one_mul]

example : (mixLocal (fun _ : Fin 2 => log (1 / 2)) ![0, log 3]).value = log 2 := by
  rw [C44_value (by norm_num)]
  congr 1
  rw [Fin.sum_univ_two]
  simp only [Matrix.cons_val_zero, Matrix.cons_val_one, exp_zero]
  rw [exp_log (by norm_num), exp_log (by norm_num)]
  norm_num

/-- C44: no responsibilities give a larger value of the local objective than the value returned, which
is the value of the objective at the responsibilities stored, and at these only. -/
theorem C44_optimal (hK : 0 < K) (lw llh r : Fin K → ℝ) (hr : IsResps r) :
    localObjective lw llh r ≤ (mixLocal lw llh).value ∧
    (localObjective lw llh r = (mixLocal lw llh).value ↔ r = (mixLocal lw llh).resps) := by
  obtain ⟨hp1, hp⟩ := C44_responsibilities hK lw llh
  set p := (mixLocal lw llh).resps with hpdef
  have hL : (mixLocal lw llh).value = log (∑ k, exp (llh k + lw k)) := by
    rw [C44_value hK]
    congr 1
    exact Finset.sum_congr rfl fun k _ => by rw [exp_add, mul_comm]
  have hlog : ∀ k, lw k + llh k = log (p k) + (mixLocal lw llh).value := by
    intro k
    rw [hL, hpdef]
    simp only [mixLocal, log_exp]
    ring
  generalize (mixLocal lw llh).value = L at hlog ⊢
  -- term by term Gibbs inequality
  have hterm : ∀ k, r k * log (p k) + negMulLog (r k) ≤ p k - r k ∧
      (r k * log (p k) + negMulLog (r k) = p k - r k → r k = p k) := by
    intro k
    rcases (hr.1 k).eq_or_lt with h0 | h0
    · rw [← h0]
      simp only [zero_mul, negMulLog_zero, add_zero, sub_zero]
      exact ⟨(hp k).le, fun h => h⟩
    · have e : r k * log (p k) + negMulLog (r k) = r k * log (p k / r k) := by
        rw [negMulLog, log_div (hp k).ne' h0.ne']; ring
      have e2 : p k - r k = r k * (p k / r k - 1) := by field_simp
      rw [e, e2]
      refine ⟨mul_le_mul_of_nonneg_left (log_le_sub_one_of_pos (div_pos (hp k) h0)) h0.le, ?_⟩
      intro h
      by_contra hne
      have hne' : p k / r k ≠ 1 := by
        intro h1
        rw [div_eq_one_iff_eq h0.ne'] at h1
        exact hne h1.symm
      have := log_lt_sub_one_of_pos (div_pos (hp k) h0) hne'
      have := mul_lt_mul_of_pos_left this h0
      linarith
  have hobj : localObjective lw llh r = L + ∑ k, (r k * log (p k) + negMulLog (r k)) := by
    unfold localObjective
    rw [Finset.sum_add_distrib, ← add_assoc]
    congr 1
    simp only [hlog, mul_add, Finset.sum_add_distrib]
    rw [← Finset.sum_mul, hr.2, one_mul, add_comm]
  have hsum0 : ∑ k, (p k - r k) = 0 := by
    rw [Finset.sum_sub_distrib, hp1.2, hr.2, sub_self]
  refine ⟨?_, ?_, ?_⟩
  · rw [hobj]
    have := Finset.sum_le_sum (s := Finset.univ) fun k _ => (hterm k).1
    rw [hsum0] at this
    linarith
  · intro h
    rw [hobj] at h
    have hz : ∑ k, (r k * log (p k) + negMulLog (r k)) = ∑ k, (p k - r k) := by
      rw [hsum0]; linarith
    have hall := (Finset.sum_eq_sum_iff_of_le fun k _ => (hterm k).1).1 hz
    funext k
    exact (hterm k).2 (hall k (Finset.mem_univ k))
  · intro h
    rw [hobj]
    have : ∀ k, r k * log (p k) + negMulLog (r k) = 0 := by
      intro k
      rw [h, negMulLog]; ring
    rw [Finset.sum_congr rfl fun k _ => this k]
    simp

example : IsResps (![1 / 4, 3 / 4] : Fin 2 → ℝ) := by
  refine ⟨?_, ?_⟩
  · intro k; fin_cases k <;> norm_num
  · rw [Fin.sum_univ_two]; norm_num

/-- C44: with the expected log-weights of a Dirichlet posterior, the value never exceeds the best
component log-likelihood. -/
theorem C44_value_le_best (c : List ℝ) (hne : c ≠ []) (hc : ∀ x ∈ c, 0 < x) (llh : Fin c.length → ℝ)
    (B : ℝ) (hB : ∀ k, llh k ≤ B) : (mixLocal (mixLogWeights c) llh).value ≤ B := by
  have hK : 0 < c.length := List.length_pos_iff.2 hne
  rw [C44_value hK, log_le_iff_le_exp (Finset.sum_pos (fun k _ => by positivity)
    ⟨⟨0, hK⟩, Finset.mem_univ _⟩)]
  have h1 := (C41_expected_log_weights_subnormalised c hc).1
  rw [List.sum_ofFn] at h1
  calc ∑ k, exp (mixLogWeights c k) * exp (llh k)
      ≤ ∑ k, exp (mixLogWeights c k) * exp B :=
        Finset.sum_le_sum fun k _ => mul_le_mul_of_nonneg_left (exp_le_exp.2 (hB k)) (exp_pos _).le
    _ = (∑ k, exp (mixLogWeights c k)) * exp B := by rw [Finset.sum_mul]
    _ ≤ 1 * exp B := mul_le_mul_of_nonneg_right h1 (exp_pos _).le
    _ = exp B := one_mul _

example : ∀ x ∈ ([1, 2] : List ℝ), 0 < x := by simp

end

/-- C44, labelled data: the value is the log-likelihood of the labelled component (its weight does not
enter), negative labels count from the end, others raise `IndexError`. -/
theorem C44_labelled (llh : List ℝ) (label : ℤ) :
    (mixLabelled llh label).map Prod.snd =
      match (if 0 ≤ label then llh[label.toNat]? else
        if -(llh.length : ℤ) ≤ label then llh[(label + llh.length).toNat]? else none) with
      | some v => .ok v
      | none => .error .indexError := by
  have hsum : ∀ (llh : List ℝ) (k : ℕ) (hk : k < llh.length),
      (List.zipWith (· * ·) llh (((List.replicate llh.length 0).set k 1).map fun n : ℕ => (n : ℝ))).sum
        = llh[k] := by
    have hz : ∀ llh : List ℝ, (List.zipWith (· * ·) llh ((List.replicate llh.length 0).map
        fun n : ℕ => (n : ℝ))).sum = 0 := by
      intro llh
      induction llh with
      | nil => rfl
      | cons a llh ih =>
        rw [List.length_cons, List.replicate_succ, List.map_cons, List.zipWith_cons_cons,
          List.sum_cons, ih]
        simp
    intro llh
    induction llh with
    | nil => intro k hk; simp at hk
    | cons a llh ih =>
      intro k hk
      cases k with
      | zero =>
        rw [List.length_cons, List.replicate_succ, List.set_cons_zero, List.map_cons,
          List.zipWith_cons_cons, List.sum_cons, hz]
        simp
      | succ k =>
        rw [List.length_cons, List.replicate_succ, List.set_cons_succ, List.map_cons,
          List.zipWith_cons_cons, List.sum_cons, ih k (by simpa using hk)]
        simp
  unfold mixLabelled Utils.onehotRow
  by_cases h1 : 0 ≤ label
  · by_cases h2 : label < llh.length
    · rw [if_pos ⟨h1, h2⟩, if_pos h1]
      have hk : label.toNat < llh.length := by omega
      rw [List.getElem?_eq_getElem hk]
      simp only [Except.map, hsum llh _ hk, sub_zero]
    · rw [if_neg (by omega), if_neg (by omega), if_pos h1, List.getElem?_eq_none (by omega)]
      rfl
  · by_cases h2 : -(llh.length : ℤ) ≤ label
    · rw [if_neg (by omega), if_pos (by omega), if_neg h1, if_pos h2]
      have hk : (label + llh.length).toNat < llh.length := by omega
      rw [List.getElem?_eq_getElem hk]
      simp only [Except.map, hsum llh _ hk, sub_zero]
    · rw [if_neg (by omega), if_neg (by omega), if_neg h1, if_neg h2]
      rfl

example : (mixLabelled [5, 7] 1).map Prod.snd = .ok 7 := by rw [C44_labelled]; rfl

/-- C44, training the weights: after a full update the concentration of a component is its prior
concentration plus the sum over the frames of its responsibilities. -/
theorem C44_weights_update (K : ℕ) (hK : 0 < K) (prior post : List ℝ) (h1 : prior.length = K)
    (h2 : post.length = K) (resps : List (Fin K → ℝ)) :
    natGradUpdate dirNatural dirFromNatural prior post (mixCatStats resps) 1 =
      .ok (List.ofFn fun k : Fin K => prior.getD k 0 + (resps.map fun r => r k).sum) := by
  have hd : DataDim K (resps.map fun r => ((1 : ℝ), List.ofFn r)) := by
    intro x hx
    simp only [List.mem_map] at hx
    obtain ⟨r, -, rfl⟩ := hx
    simp
  have := C33_dirichlet_update_adds_counts K hK prior post _ h1 h2 hd
  rw [List.map_map] at this
  have e : (fun r : ℝ × List ℝ => (r.1, catStats r.2)) ∘ (fun r : Fin K → ℝ => ((1 : ℝ), List.ofFn r)) =
      fun r => (1, catStats (List.ofFn r)) := rfl
  rw [e] at this
  unfold mixCatStats
  rw [this]
  congr 1
  apply List.ext_getElem (by simp)
  intro i hi hi'
  simp only [List.getElem_map, List.getElem_range, List.getElem_ofFn]
  congr 1
  unfold first
  rw [List.map_map]
  congr 1
  apply List.map_congr_left
  intro r _
  have hiK : i < K := by simpa using hi
  simp [Function.comp, hiK]

example : natGradUpdate dirNatural dirFromNatural [1, 2] [3, 4]
    (mixCatStats [![1 / 4, 3 / 4], ![1, 0]]) 1 = .ok [1 + (1 / 4 + 1), 2 + 3 / 4] := by
  rw [C44_weights_update 2 (by norm_num) _ _ rfl rfl]
  simp [List.ofFn_succ]

/-! ### Sets of mixtures -/

/-- C44, sets of mixtures: every mixture of the set is evaluated as the mixture made of its weights and
of its own components. -/
theorem C44_mixture_set_agrees {M C : ℕ} (hC : 0 < C) (lw : Fin M → Fin C → ℝ)
    (llh : Fin (M * C) → ℝ) (m : Fin M) :
    mixSetLocal lw llh m = mixLocal (lw m) fun c => llh (flatIdx m c) := by
  have hv := C44_value hC (lw m) fun c => llh (flatIdx m c)
  have e : ∑ c, exp (lw m c) * exp (llh (flatIdx m c)) =
      ∑ c, exp (llh (flatIdx m c) + lw m c) :=
    Finset.sum_congr rfl fun k _ => by rw [exp_add, mul_comm]
  rw [e] at hv
  have : mixLocal (lw m) (fun c => llh (flatIdx m c)) =
      ⟨(mixLocal (lw m) fun c => llh (flatIdx m c)).resps, log (∑ c, exp (llh (flatIdx m c) + lw m c))⟩ := by
    rw [← hv]
  rw [this]
  rfl

example : (flatIdx (1 : Fin 2) (2 : Fin 3)).1 = 5 := by decide

/-- C44, sets of mixtures: the responsibility of a component handed to the model set is the product of
the responsibility of its mixture and of its responsibility within the mixture; the components of a
mixture share exactly its responsibility. -/
theorem C44_mixture_set_accumulate {M C : ℕ} (mResps : Fin M → Fin C → ℝ) (resps : Fin M → ℝ)
    (m : Fin M) :
    (∀ c, totalResps mResps resps (flatIdx m c) = resps m * mResps m c) ∧
    (IsResps (mResps m) → ∑ c, totalResps mResps resps (flatIdx m c) = resps m) ∧
    mixSetCatStats mResps resps m = catStats (List.ofFn fun c => resps m * mResps m c) := by
  have h1 : ∀ c, totalResps mResps resps (flatIdx m c) = resps m * mResps m c := by
    intro c
    unfold totalResps jointResps
    have hC : 0 < C := Nat.lt_of_le_of_lt (Nat.zero_le _) c.2
    have hd : (m.1 * C + c.1) / C = m.1 := by
      rw [Nat.mul_comm, Nat.mul_add_div hC, Nat.div_eq_of_lt c.2, Nat.add_zero]
    have hm : (m.1 * C + c.1) % C = c.1 := by
      rw [Nat.mul_comm, Nat.mul_add_mod, Nat.mod_eq_of_lt c.2]
    have e1 : (⟨(flatIdx m c).1 / C, Nat.div_lt_of_lt_mul (Nat.mul_comm M C ▸ (flatIdx m c).2)⟩ :
        Fin M) = m := Fin.ext hd
    have e2 : (⟨(flatIdx m c).1 % C, Nat.mod_lt _ hC⟩ : Fin C) = c := Fin.ext hm
    rw [e1, e2, mul_comm]
  refine ⟨h1, ?_, ?_⟩
  · intro h
    rw [Finset.sum_congr rfl fun c _ => h1 c, ← Finset.mul_sum, h.2, mul_one]
  · unfold mixSetCatStats
    congr 2
    funext c
    unfold jointResps
    ring

example : totalResps (M := 2) (C := 2) ![![1 / 4, 3 / 4], ![1 / 2, 1 / 2]] ![10, 20] 1 = 30 / 4 := by
  have := (C44_mixture_set_accumulate (M := 2) (C := 2) ![![1 / 4, 3 / 4], ![1 / 2, 1 / 2]] ![10, 20] 0).1 1
  have e : flatIdx (0 : Fin 2) (1 : Fin 2) = 1 := by decide
  rw [e] at this
  rw [this]
  norm_num

end Verif.Props
