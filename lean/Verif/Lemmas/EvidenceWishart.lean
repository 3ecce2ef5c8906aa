import Verif.Lemmas.EvidenceTrain
import Verif.Lemmas.WishartMarginal
import Verif.Props.NormalWishart

/-!
# The evidence of Normal models with full covariance
-/

namespace Verif.VB

open Real MeasureTheory ProbabilityTheory Verif.Dists Verif.DistSpec Verif.Props
open scoped ENNReal Matrix

theorem list_dot_mul {D : ℕ} (a b : Fin D → ℝ) (es : List (Fin D → ℝ)) :
    (es.map fun e => (∑ j, a j * e j) * ∑ j, b j * e j).sum =
      ∑ j, (∑ i, a i * (es.map fun e => e i * e j).sum) * b j := by
  induction es with
  | nil => simp
  | cons e es ih =>
    simp only [List.map_cons, List.sum_cons, ih, mul_add, add_mul, Finset.sum_add_distrib]
    congr 1
    rw [Finset.sum_mul_sum, Finset.sum_comm]
    refine Finset.sum_congr rfl fun i _ => ?_
    rw [Finset.sum_mul]
    exact Finset.sum_congr rfl fun j _ => by ring

theorem scatter_map {D : ℕ} (k : ℝ) (A : Matrix (Fin D) (Fin D) ℝ) (es : List (Fin D → ℝ)) :
    scatter k (es.map fun e => A *ᵥ e) = A * scatter k es * Aᵀ := by
  ext i j
  rw [Matrix.mul_apply]
  simp only [Matrix.mul_apply, Matrix.transpose_apply, scatter, Matrix.of_apply, List.map_map,
    Function.comp_def, List.length_map, Matrix.mulVec, dotProduct]
  rw [list_dot_mul, list_dot_sum, list_dot_sum, Finset.sum_mul_sum, Finset.sum_comm, Finset.sum_div,
    ← Finset.sum_sub_distrib]
  refine Finset.sum_congr rfl fun l _ => ?_
  rw [Finset.sum_mul, Finset.sum_mul, Finset.sum_div, ← Finset.sum_sub_distrib]
  exact Finset.sum_congr rfl fun j _ => by ring

theorem scatter_sub {D : ℕ} (k : ℝ) (hk : 0 < k) (m : Fin D → ℝ) (xs : List (Fin D → ℝ)) (i j : Fin D) :
    scatter k (xs.map fun x => x - m) i j = (xs.map fun x => x i * x j).sum + k * (m i * m j) -
      (k + xs.length) * ((k * m i + (xs.map fun x => x i).sum) / (k + xs.length) *
        ((k * m j + (xs.map fun x => x j).sum) / (k + xs.length))) := by
  have hn : k + xs.length ≠ 0 := by positivity
  have h1 : ∀ i, (xs.map fun x => x i - m i).sum = (xs.map fun x => x i).sum - xs.length * m i := by
    intro i
    clear hn
    induction xs with
    | nil => simp
    | cons x xs ih => simp only [List.map_cons, List.sum_cons, List.length_cons, ih]; push_cast; ring
  have h2 : (xs.map fun x => (x i - m i) * (x j - m j)).sum = (xs.map fun x => x i * x j).sum -
      m i * (xs.map fun x => x j).sum - m j * (xs.map fun x => x i).sum + xs.length * (m i * m j) := by
    clear hn h1
    induction xs with
    | nil => simp
    | cons x xs ih => simp only [List.map_cons, List.sum_cons, List.length_cons, ih]; push_cast; ring
  unfold scatter
  simp only [Matrix.of_apply, List.map_map, Function.comp_def, List.length_map, Pi.sub_apply]
  rw [h1, h1, h2]
  field_simp
  ring

/-- Full covariance. -/
theorem nw_marg {D : ℕ} (root : (Σ D : ℕ, NW D) → Matrix (Fin D) (Fin D) ℝ) (hroot : IsRoot D root) :
    Marg (nwFam D) (NWValidD D) (fun _ => True) (-(1/2) * (D : ℝ) * log (2 * π)) (nwGen D root) where
  prob p hp := by
    obtain ⟨D', p⟩ := p
    obtain ⟨rfl, hp⟩ := hp
    exact normalWishartLaw_prob _ _ _ _ hp.2.2
  meas x := measurable_precisionPDF x
  marg p xs hp _ := by
    obtain ⟨D', p⟩ := p
    obtain ⟨h, hp⟩ := hp
    dsimp only at h
    subst h
    dsimp only at hp
    have hr : ∀ e ∈ xs.map (fun x => ((1 : ℝ), x)), 0 ≤ e.1 := by
      intro e he
      obtain ⟨x, _, rfl⟩ := List.mem_map.1 he
      exact zero_le_one
    obtain ⟨q, e1, hq, _⟩ := nw_update p p hp hp (xs.map fun x => ((1 : ℝ), x)) 1 hr one_pos le_rfl
    obtain ⟨q', e2, hs, hm, hW, hd⟩ := C76_normalwishart_textbook_update p p hp hp
      (xs.map fun x => ((1 : ℝ), x)) hr
    have hqq : q = q' := by
      unfold nwUpdate at e2
      rw [nwNatural_eq p hp] at e2
      dsimp only at e2
      rw [e1] at e2
      have := Except.ok.inj e2
      simpa using this
    subst hqq
    have hlen : (nwN p).length = (wsum (D' + D' * D' + 2) ((xs.map fun x => ((1 : ℝ), x)).map fun e =>
        (e.1, nwStats e.2))).length := by
      rw [nw_len, wsum_nwStats, length_nwEnc]
    have hu := fam_update_ok (nwFam D') (fun p => nwN p.2) ⟨D', p⟩ ⟨D', q⟩ _ (nwNatural_eq p hp) hlen e1
    refine ⟨⟨D', q⟩, nwA p, nwA q, hu, nwLogNorm_eq p hp, nwLogNorm_eq q hq, ?_⟩
    have hmean : (fun i : Fin D' => if h : i.val < D' then p.mean ⟨i, h⟩ else 0) = p.mean := by
      funext i
      rw [dif_pos i.2]
    show ∫⁻ θ : (Fin D' → ℝ) × (Fin D' → Fin D' → ℝ), (xs.map fun x => precisionPDF θ.1 θ.2 x).prod
      ∂normalWishartLaw (fun i : Fin D' => if h : i.val < D' then p.mean ⟨i, h⟩ else 0) p.scale
        (root ⟨D', p⟩) p.dof = _
    have hR := hroot p hp.2.1
    set L := root ⟨D', p⟩ with hLdef
    have hdW : L.det ^ 2 = p.W.det := by
      rw [← hR, Matrix.det_mul, Matrix.det_transpose, sq]
    have hpos := hp.2.1.det_pos
    have hL : L.det ≠ 0 := by
      intro h
      rw [h] at hdW
      norm_num at hdW
      exact hpos.ne hdW
    have hqpos := hq.2.1.det_pos
    rw [hmean, nw_marginal _ _ _ _ hp.1 hp.2.2 hL]
    congr 2
    have hc : wcount (xs.map fun x => ((1 : ℝ), x)) = xs.length := by
      unfold wcount
      simp [List.map_map, Function.comp_def]
    have hf : ∀ i, wfirst (xs.map fun x => ((1 : ℝ), x)) i = (xs.map fun x => x i).sum := by
      intro i
      unfold wfirst
      simp [List.map_map, Function.comp_def]
    have hsec : ∀ i j, wsecond (xs.map fun x => ((1 : ℝ), x)) i j = (xs.map fun x => x i * x j).sum := by
      intro i j
      unfold wsecond
      simp [List.map_map, Function.comp_def]
    have hWq : q.W⁻¹ = p.W⁻¹ + scatter p.scale (xs.map fun x => x - p.mean) := by
      ext i j
      rw [hW, Matrix.add_apply, scatter_sub _ hp.1, hm, hm, hs, hc, hf, hf, hsec]
      ring
    have hunit : IsUnit L.det := isUnit_iff_ne_zero.2 hL
    have hdet : (1 + scatter p.scale (xs.map fun x => Lᵀ *ᵥ (x - p.mean))).det = p.W.det / q.W.det := by
      have e : (xs.map fun x => Lᵀ *ᵥ (x - p.mean)) = (xs.map fun x => x - p.mean).map fun d => Lᵀ *ᵥ d := by
        rw [List.map_map]; rfl
      have e3 : Lᵀ * q.W⁻¹ * L = 1 + Lᵀ * scatter p.scale (xs.map fun x => x - p.mean) * Lᵀᵀ := by
        rw [hWq, mul_add, add_mul, Matrix.transpose_transpose]
        congr 1
        rw [← hR, Matrix.mul_inv_rev, ← Matrix.mul_assoc,
          Matrix.mul_nonsing_inv _ (by rwa [Matrix.det_transpose]), Matrix.one_mul,
          Matrix.nonsing_inv_mul _ hunit]
      rw [e, scatter_map, ← e3, Matrix.det_mul, Matrix.det_mul, Matrix.det_transpose, Matrix.det_nonsing_inv,
        Ring.inverse_eq_inv', ← hdW]
      ring
    have hlogL : log |L.det| = 1 / 2 * log p.W.det := by
      rw [← hdW, ← sq_abs, log_pow]
      push_cast
      ring
    have hs' : q.scale = p.scale + xs.length := by rw [hs, hc]
    have hd' : q.dof = p.dof + xs.length := by rw [hd, hc]
    rw [hdet, log_div hpos.ne' hqpos.ne', hlogL]
    unfold nwA
    rw [hs', hd']
    have hg : ∀ i : Fin D', lgamma ((p.dof + xs.length) / 2 - (i : ℝ) / 2) =
        lgamma ((p.dof - i) / 2 + xs.length / 2) := by
      intro i; congr 1; ring
    have hg' : ∀ i : Fin D', lgamma (p.dof / 2 - (i : ℝ) / 2) = lgamma ((p.dof - i) / 2) := by
      intro i; congr 1; ring
    simp only [hg, hg', Finset.sum_sub_distrib, Finset.sum_add_distrib, Finset.sum_const, Finset.card_univ,
      Fintype.card_fin, nsmul_eq_mul]
    ring

end Verif.VB
