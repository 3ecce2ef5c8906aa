import Mathlib.Tactic.FieldSimp
import Verif.Lemmas.KL
import Verif.Model.Likelihood
import Verif.Spec.Likelihood

/-!
# C42, C43: likelihood functions and subspace vectors
-/

namespace Verif.Props

open Verif Verif.Dists Verif.DistSpec Real ProbabilityTheory

theorem vdot_ofFn_eq {D : ℕ} (f g : Fin D → ℝ) :
    vdot (List.ofFn f) (List.ofFn g) = ∑ i, f i * g i := vdot_ofFn f g

/-! ## Categorical -/

theorem catLogNorm_ofFn {D : ℕ} (r : Fin D → ℝ) :
    catLogNorm (List.ofFn r) = log (1 + ∑ j, exp (r j)) := by
  cases D with
  | zero => simp [catLogNorm]
  | succ D =>
    have h : 0 < ∑ j, exp (r j) := Finset.sum_pos (fun i _ => exp_pos _) Finset.univ_nonempty
    have e : (List.map exp (List.ofFn r)).sum = ∑ j, exp (r j) := by
      rw [List.map_ofFn, List.sum_ofFn]; rfl
    unfold catLogNorm
    split
    · next h0 => simp at h0
    · rw [e, exp_log h]

theorem one_add_sum_pos {D : ℕ} (r : Fin D → ℝ) : 0 < 1 + ∑ j, exp (r j) :=
  add_pos_of_pos_of_nonneg one_pos (Finset.sum_nonneg fun _ _ => (exp_pos _).le)

theorem softmaxProbs_pos {D : ℕ} (r : Fin D → ℝ) (i : Fin (D + 1)) : 0 < softmaxProbs r i := by
  have h := one_add_sum_pos r
  unfold softmaxProbs
  refine Fin.lastCases ?_ (fun i => ?_) i
  · simp only [Fin.snoc_last]; positivity
  · simp only [Fin.snoc_castSucc]
    have := exp_pos (r i)
    positivity

theorem softmaxProbs_sum {D : ℕ} (r : Fin D → ℝ) : ∑ i, softmaxProbs r i = 1 := by
  have h := one_add_sum_pos r
  rw [Fin.sum_univ_castSucc]
  simp only [softmaxProbs, Fin.snoc_castSucc, Fin.snoc_last]
  rw [← Finset.sum_div, ← add_div, div_eq_one_iff_eq h.ne']
  ring

theorem ofFn_snoc {D : ℕ} (f : Fin D → ℝ) (x : ℝ) :
    List.ofFn (Fin.snoc f x : Fin (D + 1) → ℝ) = List.ofFn f ++ [x] := by
  rw [List.ofFn_succ']
  simp

/-- C43, categorical: reading the parameters of the pdf vector of a real vector gives the
probability vector with these log-odds; it is positive and sums to one. -/
theorem C43_categorical_decode {D : ℕ} (r : Fin D → ℝ) :
    catParams (catPdfvec (List.ofFn r)) = .ok (List.ofFn (softmaxProbs r)) ∧
    (∀ i, 0 < softmaxProbs r i) ∧ ∑ i, softmaxProbs r i = 1 := by
  refine ⟨?_, softmaxProbs_pos r, softmaxProbs_sum r⟩
  have h := one_add_sum_pos r
  unfold catParams catPdfvec
  rw [if_neg (by simp)]
  simp only [List.dropLast_concat, catLogNorm_ofFn]
  unfold softmaxProbs
  rw [ofFn_snoc, List.map_ofFn, exp_neg, exp_log h]
  congr 2
  · rw [one_div]

/-- C43, categorical: distinct real vectors give distinct distributions (all coordinates matter). -/
theorem C43_categorical_injective {D : ℕ} (r r' : Fin D → ℝ)
    (h : catParams (catPdfvec (List.ofFn r)) = catParams (catPdfvec (List.ofFn r'))) : r = r' := by
  rw [(C43_categorical_decode r).1, (C43_categorical_decode r').1, Except.ok.injEq,
    List.ofFn_inj] at h
  have hl := congrFun h (Fin.last D)
  simp only [softmaxProbs, Fin.snoc_last] at hl
  have hS : 1 + ∑ j, exp (r j) = 1 + ∑ j, exp (r' j) := by
    simpa using hl
  funext i
  have hi := congrFun h i.castSucc
  simp only [softmaxProbs, Fin.snoc_castSucc] at hi
  rw [hS, div_left_inj' (one_add_sum_pos r').ne'] at hi
  exact exp_injective hi

/-- C42, categorical: the inner product of the statistics of the counts `x` with the pdf vector is
`Σ_i x_i ln p_i`, the log probability of the data. -/
theorem C42_categorical_log_prob {D : ℕ} (r : Fin D → ℝ) (x : Fin (D + 1) → ℝ) :
    catCall (catPdfvec (List.ofFn r)) (catStats (List.ofFn x)) =
      .ok (∑ i, x i * log (softmaxProbs r i)) := by
  have h := one_add_sum_pos r
  have hx : List.ofFn x = List.ofFn (fun i : Fin D => x i.castSucc) ++ [x (Fin.last D)] := by
    rw [List.ofFn_succ']; simp
  unfold catCall llhDot catPdfvec catStats
  rw [List.sum_ofFn, hx, List.dropLast_concat, catLogNorm_ofFn, if_neg (by simp),
    vdot_append _ _ _ _ (by simp), vdot_ofFn, Fin.sum_univ_castSucc,
    Fin.sum_univ_castSucc (fun i => x i * _)]
  simp only [vdot, List.zipWith_cons_cons, List.zipWith_nil_right, List.sum_cons, List.sum_nil,
    add_zero, softmaxProbs, Fin.snoc_castSucc, Fin.snoc_last]
  congr 1
  rw [log_div one_ne_zero h.ne', log_one]
  have e : ∀ i : Fin D, x i.castSucc * log (exp (r i) / (1 + ∑ j, exp (r j))) =
      x i.castSucc * r i - x i.castSucc * log (1 + ∑ j, exp (r j)) := by
    intro i
    rw [log_div (exp_pos _).ne' h.ne', log_exp]
    ring
  simp only [e]
  rw [Finset.sum_sub_distrib, ← Finset.sum_mul]
  ring

example : catCall (catPdfvec [0]) (catStats [0, 1]) = .ok (log (1 / 2)) := by
  have := C42_categorical_log_prob (D := 1) (fun _ => 0) ![0, 1]
  have e : softmaxProbs (fun _ : Fin 1 => (0 : ℝ)) 1 = 1 / 2 := by
    rw [show (1 : Fin 2) = Fin.last 1 from rfl, softmaxProbs, Fin.snoc_last]
    norm_num
  have e2 : ∑ i, (![0, 1] : Fin 2 → ℝ) i * log (softmaxProbs (fun _ : Fin 1 => (0 : ℝ)) i) =
      log (1 / 2) := by
    rw [Fin.sum_univ_two, e]; simp
  rw [e2] at this
  simpa using this

/-! ## Diagonal normal -/

theorem log_gaussian {m l x : ℝ} (hl : 0 < l) :
    log (gaussianPDFReal m (Real.toNNReal (1 / l)) x) =
      l * m * x - (1/2) * l * x ^ 2 - (1/2) * (l * m ^ 2) + (1/2) * log l - (1/2) * log (2 * π) := by
  have hv : ((Real.toNNReal (1 / l) : NNReal) : ℝ) = 1 / l := Real.coe_toNNReal _ (by positivity)
  have hpi : (0 : ℝ) < 2 * π := by positivity
  rw [gaussianPDFReal, hv, log_mul (by positivity) (exp_pos _).ne', log_exp, log_inv,
    Real.log_sqrt (by positivity), log_mul hpi.ne' (by positivity), log_div one_ne_zero hl.ne',
    log_one]
  field_simp
  ring

theorem log_normalDensity {D : ℕ} (m l x : Fin D → ℝ) (hl : ∀ i, 0 < l i) :
    log (normalDensity m l x) = ∑ i, (l i * m i * x i - (1/2) * l i * x i ^ 2 -
      (1/2) * (l i * m i ^ 2) + (1/2) * log (l i) - (1/2) * log (2 * π)) := by
  unfold normalDensity
  rw [Real.log_prod]
  · exact Finset.sum_congr rfl fun i _ => log_gaussian (hl i)
  · intro i _
    apply ne_of_gt
    apply gaussianPDFReal_pos
    have := hl i
    rw [Ne, Real.toNNReal_eq_zero, not_le]
    positivity

theorem ngPdfvec_ofFn {D : ℕ} (m lp : Fin D → ℝ) :
    ngPdfvec (List.ofFn m ++ List.ofFn lp) =
      List.ofFn (fun i => exp (lp i) * m i) ++ List.ofFn (fun i => exp (lp i)) ++
        [∑ i, exp (lp i) * m i ^ 2, ∑ i, lp i] := by
  have hd : (List.ofFn m ++ List.ofFn lp).length / 2 = D := by simp; omega
  unfold ngPdfvec
  simp only [hd]
  have h1 : (List.ofFn m ++ List.ofFn lp).take D = List.ofFn m := by
    rw [List.take_append_of_le_length (by simp), List.take_of_length_le (by simp)]
  have h2 : ((List.ofFn m ++ List.ofFn lp).take (2 * D)).drop D = List.ofFn lp := by
    rw [List.take_of_length_le (by simp; omega), List.drop_append_of_le_length (by simp),
      List.drop_of_length_le (by simp), List.nil_append]
  rw [h1, h2, List.map_ofFn, zipWith_ofFn, zipWith_ofFn, List.sum_ofFn, List.sum_ofFn]
  rfl

/-- C43, diagonal normal: the decoded mean is the first half of the vector and the decoded
precisions are the exponentials of the second half. -/
theorem C43_diagonal_decode {D : ℕ} (m lp : Fin D → ℝ) :
    ngParams D (ngPdfvec (List.ofFn m ++ List.ofFn lp)) =
      .ok (List.ofFn m, List.ofFn fun i => exp (lp i)) := by
  rw [ngPdfvec_ofFn]
  unfold ngParams
  have h1 : ∀ (A B C : List ℝ), A.length = D → (A ++ B ++ C).take D = A := by
    intro A B C h
    rw [List.append_assoc, List.take_append_of_le_length (by omega), List.take_of_length_le (by omega)]
  have h2 : ∀ (A B C : List ℝ), A.length = D → B.length = D →
      ((A ++ B ++ C).take (2 * D)).drop D = B := by
    intro A B C h h'
    rw [List.take_append_of_le_length (by simp; omega), List.take_of_length_le (by simp; omega),
      List.drop_append_of_le_length (by omega), List.drop_of_length_le (by omega), List.nil_append]
  rw [h1 _ _ _ (by simp), h2 _ _ _ (by simp) (by simp)]
  simp only [List.length_ofFn, ne_eq, not_true_eq_false, if_false, zipWith_ofFn]
  congr 3
  funext i
  field_simp

/-- C42, diagonal normal: the value returned for the point `x` is the log of the product of the
normal densities with the encoded means and precisions. -/
theorem C42_diagonal_log_density {D : ℕ} (m lp x : Fin D → ℝ) :
    normalCall D (ngPdfvec (List.ofFn m ++ List.ofFn lp)) (ngStats (List.ofFn x)) =
      .ok (log (normalDensity m (fun i => exp (lp i)) x)) := by
  rw [ngPdfvec_ofFn, log_normalDensity _ _ _ fun i => exp_pos _]
  unfold normalCall llhDot ngStats
  rw [List.map_ofFn, if_neg (by simp), vdot_append _ _ _ _ (by simp),
    vdot_append _ _ _ _ (by simp), vdot_ofFn, vdot_ofFn]
  simp only [vdot, List.zipWith_cons_cons, List.zipWith_nil_right, List.sum_cons, List.sum_nil,
    add_zero, Function.comp, log_exp]
  congr 1
  have hD : (1/2 : ℝ) * (D : ℝ) * log (2 * π) = ∑ _i : Fin D, (1/2) * log (2 * π) := by
    simp; ring
  rw [show -(1/2) * (D : ℝ) * log (2 * π) = -((1/2 : ℝ) * (D : ℝ) * log (2 * π)) by ring, hD,
    Finset.mul_sum, Finset.mul_sum]
  simp only [← Finset.sum_add_distrib, ← Finset.sum_neg_distrib]
  apply Finset.sum_congr rfl
  intro i _
  ring

/-! ## Isotropic normal -/

/-- The pdf vector of the isotropic normal with mean `m` and precision `l`
(`isonormalgamma.py` 38-43, what the expected statistics encode). -/
noncomputable def isoPdf {D : ℕ} (m : Fin D → ℝ) (l : ℝ) : List ℝ :=
  List.ofFn (fun i => l * m i) ++ [l, ∑ i, l * m i ^ 2, log l]

/-- C42, isotropic normal: the value returned for `x` with the pdf vector of mean `m` and precision
`l` is the log density. -/
theorem C42_isotropic_log_density {D : ℕ} (m x : Fin D → ℝ) (l : ℝ) (hl : 0 < l) :
    normalCall D (isoPdf m l) (ingStats (List.ofFn x)) =
      .ok (log (normalDensity m (fun _ => l) x)) := by
  rw [log_normalDensity _ _ _ fun i => hl]
  unfold normalCall llhDot ingStats isoPdf
  rw [List.map_ofFn, if_neg (by simp), vdot_append _ _ _ _ (by simp), vdot_ofFn, List.sum_ofFn]
  simp only [vdot, List.zipWith_cons_cons, List.zipWith_nil_right, List.sum_cons, List.sum_nil,
    add_zero, Function.comp, List.length_ofFn]
  congr 1
  have hD : (1/2 : ℝ) * (D : ℝ) * log (2 * π) = ∑ _i : Fin D, (1/2) * log (2 * π) := by
    simp; ring
  have hD' : (1/2 : ℝ) * (D : ℝ) * log l = ∑ _i : Fin D, (1/2) * log l := by
    simp; ring
  rw [show -(1/2) * (D : ℝ) * log (2 * π) = -((1/2 : ℝ) * (D : ℝ) * log (2 * π)) by ring, hD, hD',
    Finset.mul_sum, Finset.mul_sum, Finset.sum_mul]
  simp only [← Finset.sum_add_distrib, ← Finset.sum_neg_distrib]
  apply Finset.sum_congr rfl
  intro i _
  ring

/-- What `pdfvectors_from_rvectors` of the isotropic normal computes: the precision is the
exponential of the last coordinate of the *mean*. -/
theorem ingPdfvec_actual {D : ℕ} (m : Fin (D + 1) → ℝ) (lp : ℝ) :
    ingPdfvec (List.ofFn m ++ [lp]) = isoPdf m (exp (m (Fin.last D))) := by
  have hm : List.ofFn m = List.ofFn (fun i : Fin D => m i.castSucc) ++ [m (Fin.last D)] := by
    rw [List.ofFn_succ']; simp
  have h1 : (List.ofFn m ++ [lp]).take ((List.ofFn m ++ [lp]).length - 1) = List.ofFn m := by
    rw [List.take_append_of_le_length (by simp), List.take_of_length_le (by simp)]
  have h2 : (List.ofFn m).drop ((List.ofFn m ++ [lp]).length - 2) = [m (Fin.last D)] := by
    have : (List.ofFn m ++ [lp]).length - 2 = D := by simp
    rw [this, hm, List.drop_append_of_le_length (by simp), List.drop_of_length_le (by simp),
      List.nil_append]
  unfold ingPdfvec isoPdf
  simp only [h1, h2, List.map_ofFn, List.sum_ofFn, log_exp]
  rfl

theorem ingParams_isoPdf {D : ℕ} (m : Fin D → ℝ) (l : ℝ) (hl : l ≠ 0) :
    ingParams (isoPdf m l) = .ok (List.ofFn m, l) := by
  unfold ingParams isoPdf
  rw [if_neg (by simp)]
  have h1 : (List.ofFn (fun i => l * m i) ++ [l, ∑ i, l * m i ^ 2, log l]).length - 3 = D := by simp
  rw [h1, List.take_append_of_le_length (by simp), List.take_of_length_le (by simp)]
  have h2 : (List.ofFn (fun i => l * m i) ++ [l, ∑ i, l * m i ^ 2, log l]).getD D 0 = l := by
    rw [List.getD_append_right _ _ _ _ (by simp)]
    simp
  simp only [h2, List.map_ofFn]
  congr 3
  funext i
  simp only [Function.comp]
  field_simp

/-- C43, isotropic normal, what the code does: the mean is decoded, but the precision is the
exponential of the last mean coordinate instead of the log-precision coordinate `lp`. -/
theorem C43_isotropic_decode_partial {D : ℕ} (m : Fin (D + 1) → ℝ) (lp : ℝ) :
    ingParams (ingPdfvec (List.ofFn m ++ [lp])) = .ok (List.ofFn m, exp (m (Fin.last D))) := by
  rw [ingPdfvec_actual, ingParams_isoPdf _ _ (exp_pos _).ne']

/-- C43 is violated for the isotropic normal, in every dimension: the decoded parameters are the
encoded ones only if the log-precision happens to equal the last mean coordinate, and the
log-precision coordinate has no influence at all. -/
theorem C43_isotropic_negation {D : ℕ} (m : Fin (D + 1) → ℝ) (lp lp' : ℝ) :
    (ingParams (ingPdfvec (List.ofFn m ++ [lp])) = .ok (List.ofFn m, exp lp) ↔
      lp = m (Fin.last D)) ∧
    ingPdfvec (List.ofFn m ++ [lp]) = ingPdfvec (List.ofFn m ++ [lp']) := by
  constructor
  · rw [C43_isotropic_decode_partial]
    simp [eq_comm]
  · rw [ingPdfvec_actual, ingPdfvec_actual]

/-- The batch version of the isotropic decoding never returns: `NameError` exactly when the division is possible, that is when the
number of columns and the number of vectors are equal or one of them is one. -/
theorem C43_isotropic_batch_raises (n len : ℕ) :
    ingParamsBatch n len ∈ [Err.indexError, Err.nameError, Err.runtimeError] ∧
    (ingParamsBatch n len = .indexError ↔ len < 3) ∧
    (∀ D, ingParamsBatch n (D + 3) = .nameError ↔ D = n ∨ D = 1 ∨ n = 1) := by
  refine ⟨?_, ?_, fun D => ?_⟩
  · unfold ingParamsBatch
    split_ifs <;> simp
  · unfold ingParamsBatch
    split_ifs <;> simp_all
  · have h : ¬ D + 3 < 3 := by omega
    unfold ingParamsBatch
    rw [if_neg h, Nat.add_sub_cancel]
    split_ifs with h1
    · simp only [true_iff]
      tauto
    · simp only [false_iff]
      tauto

example : ingParams (ingPdfvec [1, 0, 5]) = .ok ([1, 0], 1) := by
  have := C43_isotropic_decode_partial (D := 1) ![1, 0] 5
  simpa using this

/-! ## Gamma -/

theorem gamPdfvec_ofFn {D : ℕ} (r s : Fin D → ℝ) :
    gamPdfvec (List.ofFn r ++ List.ofFn s) = .ok (
      List.ofFn (fun i => -exp (1 / 1000000 + s i)) ++ List.ofFn (fun i => exp (1 / 1000000 + r i) - 1) ++
      [-∑ i, (lgamma (exp (1 / 1000000 + r i)) - exp (1 / 1000000 + r i) * log (exp (1 / 1000000 + s i)))]) := by
  have hd : (List.ofFn r ++ List.ofFn s).length / 2 = D := by simp; omega
  unfold gamPdfvec
  simp only [hd]
  have h1 : (List.ofFn r ++ List.ofFn s).take D = List.ofFn r := by
    rw [List.take_append_of_le_length (by simp), List.take_of_length_le (by simp)]
  have h2 : (List.ofFn r ++ List.ofFn s).drop D = List.ofFn s := by
    rw [List.drop_append_of_le_length (by simp),
      List.drop_of_length_le (by simp), List.nil_append]
  rw [h1, h2, List.map_ofFn, List.map_ofFn, if_neg (by simp), zipWith_ofFn, List.sum_ofFn,
    List.map_ofFn, List.map_ofFn]
  rfl

/-- C43, Gamma: the decoded shapes and rates are the exponentials of the two halves (shifted by
the constant `EPS`, one millionth). -/
theorem C43_gamma_decode {D : ℕ} (r s : Fin D → ℝ) :
    ∃ v, gamPdfvec (List.ofFn r ++ List.ofFn s) = .ok v ∧
      gamParams D v = (List.ofFn fun i => exp (1 / 1000000 + r i), List.ofFn fun i => exp (1 / 1000000 + s i)) := by
  refine ⟨_, gamPdfvec_ofFn r s, ?_⟩
  unfold gamParams
  have h1 : ∀ (A B C : List ℝ), A.length = D → (A ++ B ++ C).take D = A := by
    intro A B C h
    rw [List.append_assoc, List.take_append_of_le_length (by omega), List.take_of_length_le (by omega)]
  have h2 : ∀ (A B C : List ℝ), A.length = D → B.length = D →
      ((A ++ B ++ C).take (2 * D)).drop D = B := by
    intro A B C h h'
    rw [List.take_append_of_le_length (by simp; omega), List.take_of_length_le (by simp; omega),
      List.drop_append_of_le_length (by omega), List.drop_of_length_le (by omega), List.nil_append]
  rw [h1 _ _ _ (by simp), h2 _ _ _ (by simp) (by simp), List.map_ofFn, List.map_ofFn]
  simp only [Function.comp_def, neg_neg, sub_add_cancel]

theorem log_gammaDensity {D : ℕ} (a b x : Fin D → ℝ) (ha : ∀ i, 0 < a i) (hb : ∀ i, 0 < b i)
    (hx : ∀ i, 0 < x i) :
    log (gammaDensity a b x) = ∑ i, (a i * log (b i) - lgamma (a i) + (a i - 1) * log (x i) -
      b i * x i) := by
  unfold gammaDensity
  have hterm : ∀ i, gammaPDFReal (a i) (b i) (x i) =
      b i ^ a i / Gamma (a i) * x i ^ (a i - 1) * exp (-(b i * x i)) := fun i => by
    rw [gammaPDFReal, if_pos (hx i).le]
  have hne : ∀ i, gammaPDFReal (a i) (b i) (x i) ≠ 0 := fun i => by
    rw [hterm]
    have h1 := rpow_pos_of_pos (hb i) (a i)
    have h2 := rpow_pos_of_pos (hx i) (a i - 1)
    have h3 := Gamma_pos_of_pos (ha i)
    positivity
  rw [Real.log_prod fun i _ => hne i]
  apply Finset.sum_congr rfl
  intro i _
  have h1 := rpow_pos_of_pos (hb i) (a i)
  have h2 := rpow_pos_of_pos (hx i) (a i - 1)
  have h3 := Gamma_pos_of_pos (ha i)
  rw [hterm, log_mul (by positivity) (exp_pos _).ne', log_mul (by positivity) (by positivity),
    log_div h1.ne' h3.ne', log_rpow (hb i), log_rpow (hx i), log_exp]
  rfl

/-- C42, Gamma, what the code computes: the log density plus `2 Σ rate_i x_i`, since both the
statistics and the pdf vector carry a minus sign. -/
theorem C42_gamma_partial {D : ℕ} (r s x : Fin D → ℝ) (hx : ∀ i, 0 < x i) :
    ∃ v, gamPdfvec (List.ofFn r ++ List.ofFn s) = .ok v ∧
      gamCall v (gamStats (List.ofFn x)) =
        .ok (log (gammaDensity (fun i => exp (1 / 1000000 + r i)) (fun i => exp (1 / 1000000 + s i)) x) +
          2 * ∑ i, exp (1 / 1000000 + s i) * x i) := by
  refine ⟨_, gamPdfvec_ofFn r s, ?_⟩
  rw [log_gammaDensity _ _ _ (fun i => exp_pos _) (fun i => exp_pos _) hx]
  unfold gamCall llhDot gamStats
  rw [List.map_ofFn, List.map_ofFn, if_neg (by simp), vdot_append _ _ _ _ (by simp),
    vdot_append _ _ _ _ (by simp), vdot_ofFn, vdot_ofFn]
  simp only [vdot, List.zipWith_cons_cons, List.zipWith_nil_right, List.sum_cons, List.sum_nil,
    add_zero, Function.comp, one_mul]
  congr 1
  rw [Finset.mul_sum]
  simp only [← Finset.sum_add_distrib, ← Finset.sum_neg_distrib]
  apply Finset.sum_congr rfl
  intro i _
  ring

/-- C42 is violated for the Gamma likelihood: for every positive data point, in every dimension
`D ≥ 1`, the returned value is strictly larger than the log density. -/
theorem C42_gamma_negation {D : ℕ} (hD : 0 < D) (r s x : Fin D → ℝ) (hx : ∀ i, 0 < x i) :
    ∃ v w, gamPdfvec (List.ofFn r ++ List.ofFn s) = .ok v ∧
      gamCall v (gamStats (List.ofFn x)) = .ok w ∧
      log (gammaDensity (fun i => exp (1 / 1000000 + r i)) (fun i => exp (1 / 1000000 + s i)) x) < w := by
  obtain ⟨v, hv, hw⟩ := C42_gamma_partial r s x hx
  refine ⟨v, _, hv, hw, ?_⟩
  have : 0 < ∑ i, exp (1 / 1000000 + s i) * x i :=
    Finset.sum_pos (fun i _ => mul_pos (exp_pos _) (hx i)) ⟨⟨0, hD⟩, Finset.mem_univ _⟩
  linarith

example : ∃ v w, gamPdfvec [0, 0] = .ok v ∧ gamCall v (gamStats [1]) = .ok w ∧
    log (gammaDensity (fun _ : Fin 1 => exp (1 / 1000000 + 0)) (fun _ => exp (1 / 1000000 + 0)) (fun _ => 1)) < w := by
  have := C42_gamma_negation (D := 1) (by norm_num) (fun _ => 0) (fun _ => 0) (fun _ => 1)
    (fun _ => one_pos)
  simpa using this

example : normalCall 1 (ngPdfvec [3, 0]) (ngStats [2]) =
    .ok (log (normalDensity (fun _ : Fin 1 => 3) (fun _ => exp 0) (fun _ => 2))) := by
  have := C42_diagonal_log_density (D := 1) (fun _ => 3) (fun _ => 0) (fun _ => 2)
  simpa using this

/-! ## Normal with fixed (unit) covariance -/

/-- C42, fixed-covariance normal, what the code computes: the log density under the normal with mean
`r` and unit variances plus `½ Σ x²` (the quadratic term of the data is dropped). -/
theorem C42_fixed_partial {D : ℕ} (r x : Fin D → ℝ) :
    normalCall D (fixPdfvec (List.ofFn r)) (fixStats (List.ofFn x)) =
      .ok (log (normalDensity r (fun _ => 1) x) + (1/2) * ∑ i, x i ^ 2) := by
  rw [log_normalDensity _ _ _ fun i => one_pos]
  unfold normalCall llhDot fixStats fixPdfvec
  rw [List.map_ofFn, List.map_ofFn, if_neg (by simp), vdot_append _ _ _ _ (by simp), vdot_ofFn,
    vdot_ofFn]
  simp only [Function.comp]
  congr 1
  have hD : (1/2 : ℝ) * (D : ℝ) * log (2 * π) = ∑ _i : Fin D, (1/2) * log (2 * π) := by
    simp; ring
  rw [show -(1/2) * (D : ℝ) * log (2 * π) = -((1/2 : ℝ) * (D : ℝ) * log (2 * π)) by ring, hD,
    Finset.mul_sum]
  simp only [← Finset.sum_add_distrib, ← Finset.sum_neg_distrib, log_one]
  apply Finset.sum_congr rfl
  intro i _
  ring

/-! ## C77: advertised dimensions -/

/-- C77: for the categorical (`D ≥ 1` categories), diagonal-normal, isotropic-normal (`D ≥ 1`) and
Gamma likelihoods the advertised dimension with zero-order statistics is the length of the
sufficient statistics, and every real vector of the dimension advertised without them decodes to a
pdf vector of the same length as the statistics. -/
theorem C77_dims_agree (D : ℕ) (hD : 1 ≤ D) (x : List ℝ) (hx : x.length = D) :
    ((catStats x).length = catStatsDim D true ∧
      ∀ r : List ℝ, r.length = catStatsDim D false → (catPdfvec r).length = (catStats x).length) ∧
    ((ngStats x).length = ngStatsDim D true ∧
      ∀ r : List ℝ, r.length = ngStatsDim D false → (ngPdfvec r).length = (ngStats x).length) ∧
    ((ingStats x).length = ingStatsDim D true ∧
      ∀ r : List ℝ, r.length = ingStatsDim D false → (ingPdfvec r).length = (ingStats x).length) ∧
    ((gamStats x).length = gamStatsDim D true ∧
      ∀ r : List ℝ, r.length = gamStatsDim D false →
        ∃ v, gamPdfvec r = .ok v ∧ v.length = (gamStats x).length) := by
  refine ⟨⟨?_, ?_⟩, ⟨?_, ?_⟩, ⟨?_, ?_⟩, ?_, ?_⟩
  · simp [catStats, catStatsDim, hx]
  · intro r hr
    have : r.length = D - 1 := by simpa [catStatsDim] using hr
    simp [catPdfvec, catStats, this, hx]
  · simp [ngStats, ngStatsDim, hx]; omega
  · intro r hr
    have hr : r.length = 2 * D := by simpa [ngStatsDim] using hr
    have h2 : 2 * D / 2 = D := by omega
    simp only [ngPdfvec, ngStats, hr, h2, List.length_append, List.length_zipWith, List.length_map,
      List.length_drop, List.length_take, List.length_cons, List.length_nil, hx]
    omega
  · simp [ingStats, ingStatsDim, hx]
  · intro r hr
    have hr : r.length = D + 1 := by simpa [ingStatsDim] using hr
    obtain ⟨m, lp, rfl⟩ := List.eq_nil_or_concat r |>.resolve_left (by rintro rfl; simp at hr)
    rw [List.concat_eq_append] at hr ⊢
    have hm : m.length = (D - 1) + 1 := by simp at hr; omega
    obtain ⟨m, rfl⟩ := exists_ofFn m hm
    rw [ingPdfvec_actual]
    simp [isoPdf, ingStats, hx]
    omega
  · simp [gamStats, gamStatsDim, hx]; omega
  · intro r hr
    have hr : r.length = 2 * D := by simpa [gamStatsDim] using hr
    have h2 : 2 * D / 2 = D := by omega
    unfold gamPdfvec
    rw [if_neg (by simp [hr, h2]; omega)]
    refine ⟨_, rfl, ?_⟩
    simp [gamStats, hr, h2, hx]
    omega

example : (ngStats ([1, 2] : List ℝ)).length = 6 := by
  have := (C77_dims_agree 2 (by norm_num) [1, 2] rfl).2.1.1
  simpa [ngStatsDim] using this

/-- C77 is violated by the fixed-covariance normal: from dimension two on, the advertised dimension
with zero-order statistics is not the length of the statistics. -/
theorem C77_fixed_stats_dim_negation (D : ℕ) (hD : 2 ≤ D) (x : List ℝ) (hx : x.length = D) :
    fixStatsDim D true < (fixStats x).length := by
  simp [fixStatsDim, fixStats, hx]; omega

end Verif.Props
