import Verif.Spec.WeightedFit
import Verif.Props.NormalFit
import Verif.Lemmas.VBHmm

/-!
# Lemmas for the training of sets of Normal models
-/

namespace Verif.Props

open Matrix Verif.VB Verif.Dists Verif.DistSpec Verif.FitSpec

variable {D : ℕ}

theorem sum_nonneg_of (d : WData D) (h : ∀ r ∈ d, 0 ≤ r.1) : 0 ≤ total d := by
  refine List.sum_nonneg fun x hx => ?_
  obtain ⟨r, hr, rfl⟩ := List.mem_map.1 hx
  exact h r hr

theorem sum_of_total_zero (d : WData D) (h : ∀ r ∈ d, 0 ≤ r.1) (h0 : total d = 0) (f : (Fin D → ℝ) → ℝ) :
    (d.map fun r => r.1 * f r.2).sum = 0 := by
  induction d with
  | nil => simp
  | cons r d ih =>
    have a := h r List.mem_cons_self
    have b := sum_nonneg_of d fun r hr => h r (List.mem_cons_of_mem _ hr)
    have e : total (r :: d) = r.1 + total d := by simp [total]
    rw [e] at h0
    rw [List.map_cons, List.sum_cons, ih (fun r hr => h r (List.mem_cons_of_mem _ hr)) (by linarith),
      show r.1 = 0 by linarith]
    ring

theorem wsum_first (d : WData D) (h : ∀ r ∈ d, 0 ≤ r.1) (i : Fin D) :
    (d.map fun r => r.1 * r.2 i).sum = total d * wmean d i := by
  by_cases h0 : total d = 0
  · rw [sum_of_total_zero d h h0 fun x => x i, h0, zero_mul]
  · unfold wmean
    rw [show (d.map fun r => r.1).sum = total d from rfl]
    field_simp

theorem wsum_second (d : WData D) (h : ∀ r ∈ d, 0 ≤ r.1) (i j : Fin D) :
    (d.map fun r => r.1 * (r.2 i * r.2 j)).sum = total d * (wcov d i j + wmean d i * wmean d j) := by
  by_cases h0 : total d = 0
  · rw [sum_of_total_zero d h h0 fun x => x i * x j, h0, zero_mul]
  have key : ∀ (l : WData D) (a b : ℝ), (l.map fun r => r.1 * ((r.2 i - a) * (r.2 j - b))).sum =
      (l.map fun r => r.1 * (r.2 i * r.2 j)).sum - b * (l.map fun r => r.1 * r.2 i).sum -
        a * (l.map fun r => r.1 * r.2 j).sum + total l * (a * b) := by
    intro l a b
    induction l with
    | nil => simp [total]
    | cons x l ih =>
      have e : total (x :: l) = x.1 + total l := by simp [total]
      simp only [List.map_cons, List.sum_cons, ih, e]
      ring
  have e3 : wcov d i j * total d =
      (d.map fun r => r.1 * ((r.2 i - wmean d i) * (r.2 j - wmean d j))).sum := by
    unfold wcov
    rw [Matrix.of_apply, show (d.map fun r => r.1).sum = total d from rfl]
    field_simp
  rw [key, wsum_first d h, wsum_first d h] at e3
  linarith

/-- What a step of learning rate one makes of one Normal model, from the rows and their weights. -/
structure Refit {X P : Type} (fam : Family X P) (emb : (Fin D → ℝ) → X) (V : P → Prop) (mk : CParam P → NormalParam)
    (strength : P → ℝ) (mean : P → Fin D → ℝ) (cov : P → WData D → Matrix (Fin D) (Fin D) ℝ) : Prop where
  pos : ∀ p, V p → 0 < strength p
  update : ∀ (p q : P) (d : WData D), V p → V q → (∀ r ∈ d, 0 ≤ r.1) →
    ∃ p', fam.update ⟨p, q⟩ (wsum fam.sdim (d.map fun r => (r.1, fam.stats (emb r.2)))) 1 = .ok ⟨p, p'⟩ ∧ V p' ∧
      strength p' = strength p + total d ∧
      HasMoments (mk ⟨p, p'⟩) (pooledMean (strength p) (total d) (mean p) (wmean d)) (cov p d)

theorem ng_refit (hD : 1 ≤ D) : Refit (D := D) (ngFam D) List.ofFn (NGValid D) NormalParam.diagonal (fun p => p.scale)
    (fun p i => p.mean.getD i 0) diagFit := by
  refine ⟨fun p h => h.2.2.1, fun p q d hp hq h => ?_⟩
  have hn := sum_nonneg_of d h
  have hp' := hp
  obtain ⟨h1, h2, h3, h4, -⟩ := hp
  obtain ⟨q1, q2, -, -, -⟩ := id hq
  set rows : List (ℝ × List ℝ) := d.map fun r => (r.1, List.ofFn r.2) with hrows
  have hd : DataDim D rows := by
    intro r hr
    obtain ⟨x, hx, rfl⟩ := List.mem_map.1 hr
    simp
  have hc : count rows = total d := by
    simp only [hrows, count, total, List.map_map, Function.comp_def]
  have hg : ∀ (x : Fin D → ℝ) (i : Fin D), (List.ofFn x).getD (i : ℕ) 0 = x i := fun x i => by
    simp [List.getD_eq_getElem?_getD]
  have hf : ∀ i : Fin D, first rows i = total d * wmean d i := by
    intro i
    simp only [hrows, first, List.map_map, Function.comp_def, hg]
    exact wsum_first d h i
  have hs : ∀ i : Fin D, second rows i = total d * (wcov d i i + wmean d i * wmean d i) := by
    intro i
    simp only [hrows, second, List.map_map, Function.comp_def, hg, sq]
    exact wsum_second d h i i
  have hk : p.scale + count rows ≠ 0 := by rw [hc]; positivity
  have key := C35_normalgamma_textbook_update D p q rows h1 h2 q1 q2 hd hk
  obtain ⟨p', g1, g2, -⟩ := (ngConj hD).update p q rows 1 hp' hq (by
    intro r hr
    obtain ⟨x, hx, rfl⟩ := List.mem_map.1 hr
    exact ⟨h x hx, by simp⟩) one_pos le_rfl
  have e1 : (d.map fun r => (r.1, (ngFam D).stats (List.ofFn r.2))) = rows.map fun r => (r.1, (ngFam D).stats r.2) := by
    rw [hrows, List.map_map]; rfl
  have hlen : (wsum (ngFam D).sdim (rows.map fun r => (r.1, (ngFam D).stats r.2))).length = (ngFam D).sdim := by
    apply length_wsum
    intro r hr
    obtain ⟨r', hr', rfl⟩ := List.mem_map.1 hr
    exact (ngConj hD).len_stats _ (by simpa using hd r' hr')
  have e2 := Except.ok.inj (g1.symm.trans key)
  refine ⟨p', ?_, g2, ?_, ?_⟩
  · rw [e1]
    exact update_of _ _ _ _ _ _ _ ((ngConj hD).nat_eq p hp') ((ngConj hD).nat_eq q hq)
      (by rw [(ngConj hD).len_N _ hp']; exact hlen.symm)
      (by rw [(ngConj hD).len_N _ hp', (ngConj hD).len_N _ hq]) g1
  · rw [e2, hc]
  · rw [map_range_ofFn, map_range_ofFn, hc] at e2
    simp only [hf, hs] at e2
    subst e2
    refine ⟨rfl, ?_⟩
    rw [normalCov_diagonal hD _ _ _ _ _ rfl]
    congr 3
    funext i
    have key := scatter_eq p.scale (total d) (p.mean.getD i 0) (p.mean.getD i 0) (wmean d i) (wmean d i)
      (wcov d i i) (by positivity)
    rw [div_eq_div_iff (by positivity) (by positivity)]
    simp only [between, Matrix.of_apply]
    rw [sq, sq, key]
    ring

theorem ing_refit (hD : 1 ≤ D) : Refit (D := D) (ingFam D) List.ofFn (INGValid D) NormalParam.isotropic
    (fun p => p.scale) (fun p i => p.mean.getD i 0) isoFit := by
  refine ⟨fun p h => h.2.1, fun p q d hp hq h => ?_⟩
  have hn := sum_nonneg_of d h
  have hp' := hp
  obtain ⟨h1, h3, h4, -⟩ := hp
  obtain ⟨q1, -, -, -⟩ := id hq
  set rows : List (ℝ × List ℝ) := d.map fun r => (r.1, List.ofFn r.2) with hrows
  have hd : DataDim D rows := by
    intro r hr
    obtain ⟨x, hx, rfl⟩ := List.mem_map.1 hr
    simp
  have hc : count rows = total d := by
    simp only [hrows, count, total, List.map_map, Function.comp_def]
  have hg : ∀ (x : Fin D → ℝ) (i : Fin D), (List.ofFn x).getD (i : ℕ) 0 = x i := fun x i => by
    simp [List.getD_eq_getElem?_getD]
  have hf : ∀ i : Fin D, first rows i = total d * wmean d i := by
    intro i
    simp only [hrows, first, List.map_map, Function.comp_def, hg]
    exact wsum_first d h i
  have hs : isoSecond rows = ∑ i : Fin D, total d * (wcov d i i + wmean d i * wmean d i) := by
    simp only [hrows, isoSecond, List.map_map, Function.comp_def]
    have : ∀ x : Fin D → ℝ, ((List.ofFn x).map (· ^ 2)).sum = ∑ i, x i * x i := fun x => by
      rw [List.map_ofFn, List.sum_ofFn]
      exact Finset.sum_congr rfl fun i _ => by simp [sq]
    simp only [this]
    have sw : ∀ l : WData D, (l.map fun r => r.1 * ∑ i, r.2 i * r.2 i).sum =
        ∑ i, (l.map fun r => r.1 * (r.2 i * r.2 i)).sum := by
      intro l
      induction l with
      | nil => simp
      | cons x l ih =>
        simp only [List.map_cons, List.sum_cons, Finset.sum_add_distrib]
        rw [ih, Finset.mul_sum]
    rw [sw]
    exact Finset.sum_congr rfl fun i _ => wsum_second d h i i
  have hk : p.scale + count rows ≠ 0 := by rw [hc]; positivity
  have key := C36_isonormalgamma_conjugate_update D p q rows h1 q1 hd hk
  obtain ⟨p', g1, g2, -⟩ := (ingConj hD).update p q rows 1 hp' hq (by
    intro r hr
    obtain ⟨x, hx, rfl⟩ := List.mem_map.1 hr
    exact ⟨h x hx, by simp⟩) one_pos le_rfl
  have e1 : (d.map fun r => (r.1, (ingFam D).stats (List.ofFn r.2))) = rows.map fun r => (r.1, (ingFam D).stats r.2) := by
    rw [hrows, List.map_map]; rfl
  have hlen : (wsum (ingFam D).sdim (rows.map fun r => (r.1, (ingFam D).stats r.2))).length = (ingFam D).sdim := by
    apply length_wsum
    intro r hr
    obtain ⟨r', hr', rfl⟩ := List.mem_map.1 hr
    exact (ingConj hD).len_stats _ (by simpa using hd r' hr')
  have e2 := Except.ok.inj (g1.symm.trans key)
  refine ⟨p', ?_, g2, ?_, ?_⟩
  · rw [e1]
    exact update_of _ _ _ _ _ _ _ ((ingConj hD).nat_eq p hp') ((ingConj hD).nat_eq q hq)
      (by rw [(ingConj hD).len_N _ hp']; exact hlen.symm)
      (by rw [(ingConj hD).len_N _ hp', (ingConj hD).len_N _ hq]) g1
  · rw [e2, hc]
  · have hm0 : (p.mean.map (· ^ 2)).sum = ∑ i : Fin D, p.mean.getD i 0 ^ 2 := by
      have : p.mean = List.ofFn fun i : Fin D => p.mean.getD i 0 := by
        apply List.ext_getElem
        · simp [h1]
        · intro i a b
          simp [List.getD_eq_getElem?_getD, List.getElem?_eq_getElem a]
      conv_lhs => rw [this]
      rw [List.map_ofFn, List.sum_ofFn]
      rfl
    rw [map_range_ofFn, map_range_ofFn, hc, hs, hm0, List.sum_ofFn] at e2
    simp only [hf] at e2
    subst e2
    refine ⟨rfl, ?_⟩
    rw [normalCov_isotropic _ _ _ _ _ rfl]
    congr 3
    have key : ∀ i : Fin D, total d * wcov d i i + between p.scale (total d) (fun j => p.mean.getD j 0) (wmean d) i i =
        total d * (wcov d i i + wmean d i * wmean d i) + p.scale * p.mean.getD i 0 ^ 2 -
        (p.scale + total d) * ((p.scale * p.mean.getD i 0 + total d * wmean d i) / (p.scale + total d)) ^ 2 := by
      intro i
      rw [sq, sq]
      exact (scatter_eq p.scale (total d) (p.mean.getD i 0) (p.mean.getD i 0) (wmean d i) (wmean d i)
        (wcov d i i) (by positivity)).symm
    rw [Finset.sum_congr rfl fun i _ => key i, div_eq_div_iff (by positivity) (by positivity)]
    simp only [Finset.sum_add_distrib, Finset.sum_sub_distrib, Finset.mul_sum]
    ring

/-- The full-covariance parameters of dimension `D`. -/
noncomputable def nwOf (D : ℕ) (p : Σ D : ℕ, NW D) : NW D :=
  if h : p.1 = D then h ▸ p.2 else ⟨0, 0, 0, 0⟩

@[simp] theorem nwOf_mk (p : NW D) : nwOf D ⟨D, p⟩ = p := by simp [nwOf]

theorem nw_refit (hD : 1 ≤ D) : Refit (D := D) (nwFam D) id (NWValidD D) NormalParam.full
    (fun p => p.2.scale) (fun p => (nwOf D p).mean) (fun p => fullFit (nwOf D p)) := by
  refine ⟨fun p h => h.2.1, ?_⟩
  rintro ⟨D', p⟩ ⟨D'', q⟩ d ⟨hp0, hp⟩ ⟨hq0, hq⟩ h
  dsimp only at hp0 hq0
  obtain rfl : D = D' := hp0.symm
  obtain rfl : D = D'' := hq0.symm
  have hn := sum_nonneg_of d h
  obtain ⟨p', e, f1, f2, f3, f4⟩ := C76_normalwishart_textbook_update p q hp hq d h
  have vp : NWValidD D ⟨D, p⟩ := ⟨rfl, hp⟩
  have vq : NWValidD D ⟨D, q⟩ := ⟨rfl, hq⟩
  obtain ⟨p'', g1, g2, -⟩ := nwConj.update ⟨D, p⟩ ⟨D, q⟩ d 1 vp vq (fun r hr' => ⟨h r hr', trivial⟩) one_pos le_rfl
  have n0 := nwConj.nat_eq ⟨D, p⟩ vp
  have n1 := nwConj.nat_eq ⟨D, q⟩ vq
  have hlen : (wsum (nwFam D).sdim (d.map fun r => (r.1, (nwFam D).stats r.2))).length = (nwFam D).sdim := by
    apply length_wsum
    intro r hr
    obtain ⟨r', hr', rfl⟩ := List.mem_map.1 hr
    exact nwConj.len_stats _ trivial
  have hpp : p'' = ⟨D, p'⟩ := by
    have e0 : nwNatural p = .ok (nwConj.N ⟨D, p⟩) := n0
    have e1 : nwNatural q = .ok (nwConj.N ⟨D, q⟩) := n1
    unfold nwUpdate at e
    rw [e0, e1] at e
    exact Except.ok.inj (g1.symm.trans e)
  subst hpp
  have hc : wcount d = total d := rfl
  have hk : 0 < p.scale := hp.1
  refine ⟨⟨D, p'⟩, ?_, g2, f1, ?_, ?_⟩
  · exact update_of _ _ _ _ _ _ _ n0 n1 (by rw [nwConj.len_N _ vp]; exact hlen.symm)
      (by rw [nwConj.len_N _ vp, nwConj.len_N _ vq]) g1
  · show List.ofFn p'.mean = _
    congr 1
    funext i
    rw [f2, f1, nwOf_mk]
    unfold pooledMean wfirst
    rw [wsum_first d h]
    rfl
  · rw [normalCov_full hD _ p' rfl g2.2]
    rw [f4]
    unfold fullFit
    rw [nwOf_mk]
    congr 3
    ext i j
    rw [f3, f2, f2, f1, hc]
    simp only [Matrix.add_apply, Matrix.smul_apply, smul_eq_mul]
    have w2 : wsecond d i j = total d * (wcov d i j + wmean d i * wmean d j) := wsum_second d h i j
    have w1 : ∀ i, wfirst d i = total d * wmean d i := wsum_first d h
    have key := scatter_eq p.scale (total d) (p.mean i) (p.mean j) (wmean d i) (wmean d j)
      (wcov d i j) (by positivity)
    rw [w2, w1, w1]
    simp only [between, Matrix.of_apply]
    linarith

end Verif.Props
