import Verif.Lemmas.DirichletMoment
import Verif.Lemmas.VBHmm
import Verif.Lemmas.VBTrain
import Verif.Props.DistsUpdate

/-!
# The evidence of conjugate families is the difference of their log-normalisers
-/

namespace Verif.VB

open Real MeasureTheory ProbabilityTheory Verif.Dists Verif.DistSpec Verif.Props
open scoped ENNReal

variable {X P : Type}

/-- The evidence of data of a family is the exponential of the difference of the log-normalisers of
the posterior reached by a full step and of the prior, plus a constant per data point. -/
structure Marg (fam : Family X P) (V : P → Prop) (XV : X → Prop) (base : ℝ) (G : FamGen X P) : Prop where
  prob : ∀ p, V p → IsProbabilityMeasure (G.law p)
  meas : ∀ x, Measurable fun θ => G.dens θ x
  marg : ∀ (p : P) (xs : List X), V p → (∀ x ∈ xs, XV x) → ∃ best a0 a1,
    fam.update ⟨p, p⟩ (vsmul 1 (wsum fam.sdim ((xs.map fun x => ((1 : ℝ), x)).map fun r =>
      (r.1, fam.stats r.2)))) 1 = .ok ⟨p, best⟩ ∧
    fam.logNorm p = .ok a0 ∧ fam.logNorm best = .ok a1 ∧
    ∫⁻ θ, (xs.map fun x => G.dens θ x).prod ∂G.law p =
      ENNReal.ofReal (exp (a1 - a0 + xs.length * base))

theorem prod_list_swap {ι : Type} (D : ℕ) (f : Fin D → ι → ℝ≥0∞) (xs : List ι) :
    (xs.map fun x => ∏ i, f i x).prod = ∏ i, (xs.map fun x => f i x).prod := by
  induction xs with
  | nil => simp
  | cons x xs ih => simp [ih, Finset.prod_mul_distrib]

theorem sum_range_fin (D : ℕ) (f : ℕ → ℝ) : ((List.range D).map f).sum = ∑ i : Fin D, f i := by
  induction D with
  | zero => simp
  | succ D ih => rw [List.range_succ, List.map_append, List.sum_append, ih, Fin.sum_univ_castSucc]; simp

theorem sum_getD {D : ℕ} (l : List ℝ) (h : l.length = D) (f : ℝ → ℝ) :
    (l.map f).sum = ∑ i : Fin D, f (l.getD i 0) := by
  rw [← sum_range_fin D fun i => f (l.getD i 0)]
  congr 1
  apply List.ext_getElem (by simp [h])
  intro i h1 h2
  simp at h1
  simp [List.getD_eq_getElem?_getD, h1]

theorem ones_count (xs : List (List ℝ)) : count (xs.map fun x => ((1 : ℝ), x)) = xs.length := by
  unfold count
  rw [List.map_map]
  simp [Function.comp_def]

theorem ones_first (xs : List (List ℝ)) (i : ℕ) :
    first (xs.map fun x => ((1 : ℝ), x)) i = (xs.map fun x => x.getD i 0).sum := by
  unfold first
  rw [List.map_map]
  simp [Function.comp_def]

theorem ones_second (xs : List (List ℝ)) (i : ℕ) :
    second (xs.map fun x => ((1 : ℝ), x)) i = ((xs.map fun x => x.getD i 0).map (· ^ 2)).sum := by
  unfold second
  rw [List.map_map, List.map_map]
  simp [Function.comp_def]

theorem vsmul_one (l : List ℝ) : vsmul 1 l = l := by simp [vsmul]

theorem getD_pos (l : List ℝ) (h : ∀ x ∈ l, 0 < x) (i : ℕ) (hi : i < l.length) : 0 < l.getD i 0 := by
  simp only [List.getD_eq_getElem?_getD, List.getElem?_eq_getElem hi, Option.getD_some]
  exact h _ (List.getElem_mem _)

theorem fam_update_ok (fam : Family X P) (nat : P → List ℝ) (p q : P) (stats : List ℝ)
    (hn : fam.natural p = .ok (nat p)) (hs : (nat p).length = stats.length)
    (hup : natGradUpdate nat fam.fromNatural p p stats 1 = .ok q) :
    fam.update ⟨p, p⟩ (vsmul 1 stats) 1 = .ok ⟨p, q⟩ := by
  unfold natGradUpdate at hup
  unfold Family.update
  rw [hn, vsmul_one]
  show (if _ then _ else _) = _
  rw [if_neg (by simp [hs]), hup]
  rfl

theorem ng_marg {D : ℕ} : Marg (ngFam D) (NGValid D) (fun x => x.length = D)
    (-(1/2) * (D : ℝ) * log (2 * π)) (ngGen D) where
  prob p hp := by
    have : ∀ i : Fin D, IsProbabilityMeasure
        (normalGammaLaw (p.mean.getD i 0) p.scale p.shape (p.rates.getD i 0)) := fun i =>
      normalGammaLaw_prob _ _ _ _ hp.2.2.2.1 (getD_pos _ hp.2.2.2.2 i (by rw [hp.2.1]; exact i.2))
    unfold ngGen
    exact inferInstance
  meas x := by
    show Measurable fun θ : Fin D → ℝ × ℝ => ∏ i, gaussianPDF (θ i).1 (1 / (θ i).2).toNNReal (x.getD i 0)
    exact Finset.measurable_prod _ fun i _ =>
      (measurable_gaussianPDF_param (x.getD i 0)).comp (measurable_pi_apply i)
  marg p xs hp hx := by
    have hd : DataDim D (xs.map fun x => ((1 : ℝ), x)) := by
      intro d hd
      obtain ⟨x, h, rfl⟩ := List.mem_map.1 hd
      exact hx x h
    have hk : 0 < p.scale + count (xs.map fun x => ((1 : ℝ), x)) := by
      have := hp.2.2.1
      rw [ones_count]; positivity
    have hup := C35_normalgamma_textbook_update D p p (xs.map fun x => ((1 : ℝ), x)) hp.1 hp.2.1 hp.1
      hp.2.1 hd hk.ne'
    have hlen : (wsum (2 * D + 2) ((xs.map fun x => ((1 : ℝ), x)).map fun r => (r.1, ngStats r.2))).length
        = 2 * D + 2 := by
      apply length_wsum
      intro r h
      obtain ⟨r', h', rfl⟩ := List.mem_map.1 h
      simp [ngStats, hd r' h']; omega
    have hu := fam_update_ok (ngFam D) ngNatural p _ _ rfl (by rw [ng_len hp]; exact hlen.symm) hup
    refine ⟨_, _, _, hu, rfl, rfl, ?_⟩
    have hm : ∀ i : Fin D, Measurable fun θ : ℝ × ℝ =>
        (xs.map fun x => gaussianPDF θ.1 (1 / θ.2).toNNReal (x.getD i 0)).prod := fun i =>
      measurable_list_prod (fun (x : List ℝ) (θ : ℝ × ℝ) => gaussianPDF θ.1 (1 / θ.2).toNNReal (x.getD i 0))
        (fun x => measurable_gaussianPDF_param _) xs
    have hr : ∀ i : Fin D, 0 < p.rates.getD i 0 := fun i =>
      getD_pos _ hp.2.2.2.2 i (by rw [hp.2.1]; exact i.2)
    have h1 : ∫⁻ θ, (xs.map fun x => (ngGen D).dens θ x).prod ∂(ngGen D).law p =
        ∏ i : Fin D, ∫⁻ θ, ((xs.map fun x => x.getD i 0).map fun x =>
          gaussianPDF θ.1 (1 / θ.2).toNNReal x).prod
          ∂normalGammaLaw (p.mean.getD i 0) p.scale p.shape (p.rates.getD i 0) := by
      show ∫⁻ θ : Fin D → ℝ × ℝ, (xs.map fun x => ∏ i : Fin D,
        gaussianPDF (θ i).1 (1 / (θ i).2).toNNReal (x.getD i 0)).prod ∂Measure.pi _ = _
      simp_rw [prod_list_swap D]
      rw [lintegral_pi_prod _ (fun i => normalGammaLaw_prob _ _ _ _ hp.2.2.2.1 (hr i)) _ hm]
      simp_rw [List.map_map]
      rfl
    rw [h1, Finset.prod_congr rfl fun i _ => ng_marginal _ _ _ _ hp.2.2.1 hp.2.2.2.1 (hr i) _,
      ← ENNReal.ofReal_prod_of_nonneg (fun i _ => (exp_pos _).le), ← exp_sum]
    congr 2
    unfold ngLogNorm
    simp only [List.length_map, List.length_range, hp.2.1, List.map_map, sum_range_fin, ones_count,
      Function.comp_def, ones_first, ones_second]
    rw [sum_getD p.rates hp.2.1]
    simp only [Finset.sum_sub_distrib, Finset.sum_const, Finset.card_univ, Fintype.card_fin,
      nsmul_eq_mul, ← Finset.mul_sum]
    have e : ∀ i : Fin D, postSq (p.mean.getD i 0) p.scale (xs.map fun x => x.getD i 0) =
        ((xs.map fun x => x.getD i 0).map (· ^ 2)).sum + p.scale * p.mean.getD i 0 ^ 2 -
          (p.scale + xs.length) *
            ((p.scale * p.mean.getD i 0 + (xs.map fun x => x.getD i 0).sum) / (p.scale + xs.length)) ^ 2 := by
      intro i
      unfold postSq postMean
      simp
    simp only [e, List.map_map, Function.comp_def]
    ring

theorem ones_isoSecond {D : ℕ} (xs : List (List ℝ)) (hx : ∀ x ∈ xs, x.length = D) :
    isoSecond (xs.map fun x => ((1 : ℝ), x)) =
      ∑ i : Fin D, ((xs.map fun x => x.getD i 0).map (· ^ 2)).sum := by
  unfold isoSecond
  rw [List.map_map]
  induction xs with
  | nil => simp
  | cons x xs ih =>
    simp only [List.map_cons, List.sum_cons, Function.comp_apply, Finset.sum_add_distrib, one_mul]
    rw [← ih fun y h => hx y (by simp [h]), sum_getD x (hx x (by simp)) (· ^ 2)]

theorem ing_marg {D : ℕ} : Marg (ingFam D) (INGValid D) (fun x => x.length = D)
    (-(1/2) * (D : ℝ) * log (2 * π)) (ingGen D) where
  prob p hp := isoNormalGammaLaw_prob _ _ _ _ hp.2.2.1 hp.2.2.2
  meas x := by
    show Measurable fun θ : (Fin D → ℝ) × ℝ => ∏ i, gaussianPDF (θ.1 i) (1 / θ.2).toNNReal (x.getD i 0)
    exact Finset.measurable_prod _ fun i _ => measurable_gaussianPDF_iso i (x.getD i 0)
  marg p xs hp hx := by
    have hd : DataDim D (xs.map fun x => ((1 : ℝ), x)) := by
      intro d hd
      obtain ⟨x, h, rfl⟩ := List.mem_map.1 hd
      exact hx x h
    have hk : 0 < p.scale + count (xs.map fun x => ((1 : ℝ), x)) := by
      have := hp.2.1
      rw [ones_count]; positivity
    have hup := C36_isonormalgamma_conjugate_update D p p (xs.map fun x => ((1 : ℝ), x)) hp.1 hp.1
      hd hk.ne'
    have hlen : (wsum (D + 3) ((xs.map fun x => ((1 : ℝ), x)).map fun r => (r.1, ingStats r.2))).length
        = D + 3 := by
      apply length_wsum
      intro r h
      obtain ⟨r', h', rfl⟩ := List.mem_map.1 h
      simp [ingStats, hd r' h']
    have hu := fam_update_ok (ingFam D) ingNatural p _ _ rfl (by rw [ing_len hp]; exact hlen.symm) hup
    refine ⟨_, _, _, hu, rfl, rfl, ?_⟩
    have h1 : ∫⁻ θ, (xs.map fun x => (ingGen D).dens θ x).prod ∂(ingGen D).law p =
        ∫⁻ θ, ∏ i : Fin D, ((xs.map fun x => x.getD i 0).map fun x =>
          gaussianPDF (θ.1 i) (1 / θ.2).toNNReal x).prod
          ∂isoNormalGammaLaw (fun i : Fin D => p.mean.getD i 0) p.scale p.shape p.rate := by
      show ∫⁻ θ : (Fin D → ℝ) × ℝ, (xs.map fun x => ∏ i : Fin D,
        gaussianPDF (θ.1 i) (1 / θ.2).toNNReal (x.getD i 0)).prod ∂_ = _
      simp_rw [prod_list_swap D, List.map_map]
      rfl
    rw [h1, iso_marginal _ _ _ _ hp.2.1 hp.2.2.1 hp.2.2.2 xs.length _ (fun i => by simp)]
    congr 2
    unfold ingLogNorm
    simp only [List.length_map, List.length_range, hp.1, sum_range_fin, ones_count,
      ones_first, ones_isoSecond xs hx]
    rw [sum_getD p.mean hp.1]
    have e : ∑ i : Fin D, postSq (p.mean.getD i 0) p.scale (xs.map fun x => x.getD i 0) =
        ∑ i : Fin D, ((xs.map fun x => x.getD i 0).map (· ^ 2)).sum +
          p.scale * ∑ i : Fin D, p.mean.getD i 0 ^ 2 -
          (p.scale + xs.length) * ∑ i : Fin D,
            ((p.scale * p.mean.getD i 0 + (xs.map fun x => x.getD i 0).sum) / (p.scale + xs.length)) ^ 2 := by
      unfold postSq postMean
      rw [Finset.sum_sub_distrib, Finset.sum_add_distrib, Finset.mul_sum, Finset.mul_sum]
      simp
    rw [e, show p.shape + D * (xs.length : ℝ) / 2 = p.shape + D / 2 * xs.length by ring]
    ring

theorem oneHot_getD {D : ℕ} (k i : Fin D) :
    (List.ofFn fun j : Fin D => if j = k then (1 : ℝ) else 0).getD i 0 = if i = k then 1 else 0 := by
  simp [List.getD_eq_getElem?_getD, List.getElem?_ofFn]

theorem oneHot_list {D : ℕ} (xs : List (List ℝ)) (hx : ∀ x ∈ xs, OneHot D x) :
    ∃ ks : List (Fin D), xs = ks.map fun k => List.ofFn fun j : Fin D => if j = k then (1 : ℝ) else 0 := by
  induction xs with
  | nil => exact ⟨[], rfl⟩
  | cons x xs ih =>
    obtain ⟨k, hk⟩ := hx x (by simp)
    obtain ⟨ks, hks⟩ := ih fun y h => hx y (by simp [h])
    exact ⟨k :: ks, by rw [List.map_cons, ← hk, ← hks]⟩

theorem oneHot_dens {D : ℕ} (k : Fin D) (w : Fin D → ℝ) :
    (dirGen D).dens w (List.ofFn fun j : Fin D => if j = k then (1 : ℝ) else 0) =
      ENNReal.ofReal (w k) := by
  show ENNReal.ofReal (∑ i : Fin D, _ * w i) = _
  simp only [oneHot_getD, ite_mul, one_mul, zero_mul]
  rw [Finset.sum_ite_eq' Finset.univ k w, if_pos (Finset.mem_univ k)]

theorem ones_first_oneHot {D : ℕ} (ks : List (Fin D)) (i : Fin D) :
    ((ks.map fun k => List.ofFn fun j : Fin D => if j = k then (1 : ℝ) else 0).map
      fun x => x.getD i 0).sum = (ks.count i : ℝ) := by
  induction ks with
  | nil => simp
  | cons k ks ih =>
    simp only [List.map_cons, List.sum_cons, ih, oneHot_getD, List.count_cons, Nat.cast_add]
    rcases eq_or_ne i k with rfl | h
    · simp; ring
    · simp [h, Ne.symm h]

theorem dir_marg {D : ℕ} (hD : 1 ≤ D) : Marg (dirFam D) (DirValid D) (OneHot D) 0 (dirGen D) where
  prob p hp := dirichletLaw_prob _ fun i => getD_pos _ hp.2 i (by rw [hp.1]; exact i.2)
  meas x := by
    show Measurable fun θ : Fin D → ℝ => ENNReal.ofReal (∑ i : Fin D, x.getD i 0 * θ i)
    fun_prop
  marg p xs hp hx := by
    obtain ⟨ks, rfl⟩ := oneHot_list xs hx
    have hp' : ∀ i : Fin D, 0 < p.getD i 0 := fun i => getD_pos _ hp.2 i (by rw [hp.1]; exact i.2)
    set xs := ks.map fun k => List.ofFn fun j : Fin D => if j = k then (1 : ℝ) else 0 with hxs
    have hd : DataDim D (xs.map fun x => ((1 : ℝ), x)) := by
      intro d hd
      obtain ⟨x, h, rfl⟩ := List.mem_map.1 hd
      obtain ⟨k, rfl⟩ := hx x h
      simp
    have hup := C33_dirichlet_update_adds_counts D hD p p (xs.map fun x => ((1 : ℝ), x)) hp.1 hp.1 hd
    have hlen : (wsum D ((xs.map fun x => ((1 : ℝ), x)).map fun r => (r.1, catStats r.2))).length
        = D := by
      apply length_wsum
      intro r h
      obtain ⟨r', h', rfl⟩ := List.mem_map.1 h
      have hl : r'.2.length = D := hd r' h'
      simp only
      rw [length_catStats _ (ne_nil_of_length hD hl), hl]
    have hu := fam_update_ok (dirFam D) dirNatural p _ _ rfl (by rw [dir_len hD hp]; exact hlen.symm) hup
    refine ⟨_, _, _, hu, rfl, rfl, ?_⟩
    have h1 : ∫⁻ θ, (xs.map fun x => (dirGen D).dens θ x).prod ∂(dirGen D).law p =
        ∫⁻ w, (ks.map fun k => ENNReal.ofReal (w k)).prod ∂dirichletLaw fun i : Fin D => p.getD i 0 := by
      refine lintegral_congr fun w => ?_
      rw [hxs, List.map_map]
      congr 1
      exact List.map_congr_left fun k _ => oneHot_dens k w
    rw [h1, dirichlet_moment hD _ hp']
    have hne : Nonempty (Fin D) := ⟨⟨0, hD⟩⟩
    have hs : 0 < ∑ i : Fin D, p.getD i 0 := Finset.sum_pos (fun i _ => hp' i) Finset.univ_nonempty
    have hs' : 0 < ∑ i : Fin D, p.getD i 0 + ks.length := by positivity
    have hb := bump_pos (fun i : Fin D => p.getD i 0) hp' ks
    congr 1
    rw [mul_zero, add_zero]
    unfold dirLogNorm
    simp only [ones_first, List.map_map, Function.comp_def, sum_range_fin]
    have e1 : ∀ i : Fin D, p.getD i 0 + (xs.map fun x => x.getD i 0).sum =
        bump (fun i : Fin D => p.getD i 0) ks i := fun i => by rw [hxs, ones_first_oneHot]; rfl
    simp only [e1]
    rw [sum_bump, sum_getD p hp.1, show p.sum = ∑ i : Fin D, p.getD i 0 by
      have := sum_getD p hp.1 fun x => x
      rwa [List.map_id'] at this]
    unfold lgamma
    rw [exp_sub, exp_sub, exp_sub, exp_sum, exp_sum, exp_log (Real.Gamma_pos_of_pos hs),
      exp_log (Real.Gamma_pos_of_pos hs'), Finset.prod_div_distrib]
    rw [Finset.prod_congr rfl fun i _ => exp_log (Real.Gamma_pos_of_pos (hb i)),
      Finset.prod_congr rfl fun i _ => exp_log (Real.Gamma_pos_of_pos (hp' i))]
    have := (Real.Gamma_pos_of_pos hs).ne'
    have := (Real.Gamma_pos_of_pos hs').ne'
    have h2 : ∏ i : Fin D, Real.Gamma (p.getD i 0) ≠ 0 :=
      Finset.prod_ne_zero_iff.2 fun i _ => (Real.Gamma_pos_of_pos (hp' i)).ne'
    field_simp

end Verif.VB
