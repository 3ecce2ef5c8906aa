import Verif.Lemmas.RescaleTrain
import Verif.Lemmas.RescaleFam
import Verif.Model.Create
import Verif.Model.Features

/-!
# Corresponding models: objectives of HMMs, creation of models
-/

namespace Verif.VB

open Real Matrix Verif.Dists Verif.DistSpec Verif.Mixture Verif.Props Verif.Spec

variable {X P : Type}

theorem param_id {fam : Family X P} {V : P → Prop} {XV : X → Prop} : ParamCorresponds fam V XV id id 0 where
  valid _ h := h
  data _ h := h
  llh p x v _ _ h := by rw [add_zero]; exact h
  kl _ _ _ _ := rfl
  update p rows scale l p' _ _ _ _ _ h := h

/-- Only the translation of valid parameters matters. -/
theorem Corresponds.congr {M : ℕ} {S S' : SetModel X M} {V : S.State → Prop} {V' : S'.State → Prop} {XV : X → Prop}
    {f : X → X} {F G : S.State → S'.State} {c : ℝ} {σ : Equiv.Perm (Fin M)} (hl : Lawful S V XV)
    (h : Corresponds S S' V V' XV f F c σ) (hG : ∀ st, V st → F st = G st) : Corresponds S S' V V' XV f G c σ where
  valid st hv := by rw [← hG st hv]; exact h.valid st hv
  data := h.data
  llh st x v hv hx e := by rw [← hG st hv]; exact h.llh st x v hv hx e
  kl st hv := by rw [← hG st hv]; exact h.kl st hv
  step st rows scale l st' hv hr hs h0 h1 e := by
    obtain ⟨s2, e2, v2, -⟩ := hl.step_ok st rows scale l hv hr hs h0 h1
    rw [e] at e2
    have : st' = s2 := Except.ok.inj e2
    rw [← hG st hv, ← hG st' (this ▸ v2)]
    exact h.step st rows scale l st' hv hr hs h0 h1 e

theorem hmmResps_sum {K n : ℕ} (g : CGraph K) (v : Fin (n + 1) → Fin K → ℝ) (r : Fin (n + 1) → Fin K → ℝ)
    (hr : hmmResps g v = .ok r) (hK : 0 < K) (t : Fin (n + 1)) : ∑ s, r t s = 1 := by
  have h1 := fun t => seqFin_inv _ _ (seqFin_inv _ _ hr t)
  have hev : 0 < evidence g (asLog v) := by
    rcases (Finset.sum_nonneg fun p _ => pathWeight_nonneg g (asLog v) p :
      0 ≤ evidence g (asLog v)).lt_or_eq with h | h
    · exact h
    · have := h1 t ⟨0, hK⟩
      obtain ⟨K, rfl⟩ : ∃ m, K = m + 1 := ⟨K - 1, by omega⟩
      rw [C11_zero_evidence_is_nan g _ h.symm] at this
      cases this
  obtain ⟨q, hq, -, hs⟩ := C11_state_posteriors_sum_to_one g (asLog v) hev t
  rw [← hs]
  refine Finset.sum_congr rfl fun s _ => ?_
  have := h1 t s
  rw [hq s] at this
  exact (Except.ok.inj this).symm

theorem hmmElbo_corr {S : ℕ} {inner inner' : SetModel X S} {V : inner.State → Prop} {V' : inner'.State → Prop}
    {XV : X → Prop} {f : X → X} {F : inner.State → inner'.State} {c : ℝ} {σ : Equiv.Perm (Fin S)}
    (hl : Lawful inner V XV) (h : Corresponds inner inner' V V' XV f F c σ) (hS : 0 < S)
    (g : CGraph S) (st : inner.State) (hv : V st) (a : ℝ) (u : Utt X) (hu : ∀ t, XV (u.2 t)) (datasize : ℤ) (e : ℝ)
    (he : hmmElbo g inner st a u datasize = .ok e) :
    hmmElbo (permGraph σ g) inner' (F st) a (u.tr f) datasize =
      .ok (e + (if datasize ≤ 0 then ((u.1 + 1 : ℕ) : ℤ) else datasize : ℤ) * (a * c)) := by
  obtain ⟨v, e1, e2⟩ := hmmLlhs_corr hl h st hv a u hu
  unfold hmmElbo hmmExpLlh at he ⊢
  have hb : batchScale (u.1 + 1) datasize =
    .ok (((if datasize ≤ 0 then ((u.1 + 1 : ℕ) : ℤ) else datasize : ℤ) : ℝ) / ((u.1 + 1 : ℕ) : ℝ)) := by
    unfold batchScale
    rw [if_neg (by omega)]
  rw [hb, e1] at he
  have hb' : batchScale ((u.tr f).1 + 1) datasize = _ := hb
  rw [hb', e2]
  simp only [ok_bind] at he ⊢
  cases e3 : hmmResps g v with
  | error x => rw [e3] at he; cases he
  | ok r =>
    rw [e3] at he
    have e4 := hmmResps_shift σ g v (a * c) r e3
    have e4' : hmmResps (n := (u.tr f).1) (permGraph σ g) (fun t s => v t (σ s) + a * c) = .ok fun t s => r t (σ s) := e4
    rw [e4', h.kl st hv]
    simp only [ok_bind] at he ⊢
    cases e5 : inner.kl st with
    | error x => rw [e5] at he; cases he
    | ok k =>
      rw [e5] at he
      simp only [ok_bind] at he ⊢
      rw [← Except.ok.inj he]
      congr 1
      have hsum : ∑ t : Fin ((u.tr f).1 + 1), ∑ s, (v t (σ s) + a * c) * r t (σ s) =
          ∑ t, ∑ s, v t s * r t s + ((u.1 + 1 : ℕ) : ℝ) * (a * c) := by
        have : ∀ t : Fin (u.1 + 1), ∑ s, (v t (σ s) + a * c) * r t (σ s) = ∑ s, v t s * r t s + a * c := by
          intro t
          rw [Equiv.sum_comp σ fun s => (v t s + a * c) * r t s]
          simp only [add_mul, Finset.sum_add_distrib]
          rw [← Finset.mul_sum, hmmResps_sum g v r e3 hS t, mul_one]
        show ∑ t : Fin (u.1 + 1), _ = _
        simp only [this, Finset.sum_add_distrib, Finset.sum_const, Finset.card_univ, Fintype.card_fin, nsmul_eq_mul]
      rw [hsum]
      have hne : ((u.1 + 1 : ℕ) : ℝ) ≠ 0 := by positivity
      field_simp
      ring

/-! ## Creation -/

theorem setNoise_units {D M : ℕ} (a : Fin D → ℝ) (ha : ∀ i, 0 < a i) (randn : Fin M → Fin D → ℝ) (noise : ℝ)
    (diag : Fin D → ℝ) (m : Fin M) (i : Fin D) :
    setNoise randn noise (fun i => a i ^ 2 * diag i) m i = a i * setNoise randn noise diag m i := by
  unfold setNoise
  rw [sqrt_mul (sq_nonneg _), sqrt_sq (ha i).le]
  ring

end Verif.VB

namespace Verif.Features

theorem foldl_add_eq {d : ℕ} (utts : List (Utt d)) (a : DataAcc d) : utts.foldl DataAcc.add a =
    ⟨a.sum + utts.flatten.sum, a.sqSum + (utts.flatten.map fun x => x ^ 2).sum, a.count + utts.flatten.length⟩ := by
  induction utts generalizing a with
  | nil => simp
  | cons u us ih =>
    rw [List.foldl_cons, ih]
    simp only [DataAcc.add, List.flatten_cons, List.sum_append, List.map_append, List.length_append, add_assoc]

theorem sum_units {d : ℕ} (a b : Fin d → ℝ) (l : List (Fin d → ℝ)) :
    (l.map fun x => a * x + b).sum = a * l.sum + (l.length : ℝ) • b := by
  induction l with
  | nil => simp
  | cons x l ih =>
    simp only [List.map_cons, List.sum_cons, ih, List.length_cons]
    funext i
    simp only [Pi.add_apply, Pi.mul_apply, Pi.smul_apply, smul_eq_mul]
    push_cast
    ring

theorem sqsum_units {d : ℕ} (a b : Fin d → ℝ) (l : List (Fin d → ℝ)) :
    (l.map fun x => (a * x + b) ^ 2).sum = a ^ 2 * (l.map fun x => x ^ 2).sum + 2 * a * b * l.sum +
      (l.length : ℝ) • b ^ 2 := by
  induction l with
  | nil => simp
  | cons x l ih =>
    simp only [List.map_cons, List.sum_cons, ih, List.length_cons]
    funext i
    simp only [Pi.add_apply, Pi.mul_apply, Pi.smul_apply, Pi.pow_apply, smul_eq_mul, Pi.ofNat_apply]
    push_cast
    ring

theorem datasetStats_units {d : ℕ} (a b : Fin d → ℝ) (utts : List (Utt d)) (mean var : Fin d → ℝ) (n : ℕ)
    (h : datasetStats utts = .ok (mean, var, n)) :
    datasetStats (utts.map fun u => u.map fun x => a * x + b) =
      .ok (a * mean + b, fun i => a i ^ 2 * var i, n) := by
  unfold datasetStats at h ⊢
  by_cases h0 : utts = []
  · rw [if_pos h0] at h; cases h
  rw [if_neg h0] at h
  rw [if_neg (by simpa using h0)]
  simp only [foldl_add_eq] at h ⊢
  have hfl : (utts.map fun u => u.map fun x => a * x + b).flatten = utts.flatten.map fun x => a * x + b := by
    rw [List.map_flatten]
  rw [hfl]
  simp only [List.map_map, List.length_map, zero_add, Function.comp_def] at h ⊢
  by_cases h1 : utts.flatten.length = 0
  · rw [if_pos h1] at h; cases h
  rw [if_neg h1] at h
  rw [if_neg h1]
  have h2 := Except.ok.inj h
  simp only [Prod.mk.injEq] at h2
  obtain ⟨hm, hv, hn⟩ := h2
  have hne : ((utts.flatten.length : ℕ) : ℝ) ≠ 0 := by exact_mod_cast h1
  rw [← hm, ← hv, ← hn, sum_units, sqsum_units]
  congr 1
  refine Prod.ext ?_ (Prod.ext ?_ rfl)
  · funext i
    simp only [Pi.add_apply, Pi.mul_apply, Pi.smul_apply, smul_eq_mul]
    field_simp
  · funext i
    simp only [Pi.add_apply, Pi.mul_apply, Pi.smul_apply, smul_eq_mul, Pi.pow_apply, Pi.ofNat_apply]
    field_simp
    ring

end Verif.Features
