import Verif.Lemmas.RescaleTrain
import Verif.Props.LoopVB

/-!
# Phone loops with their units numbered in another order
-/

namespace Verif.VB

open Real Verif.Dists Verif.DistSpec Verif.Props Verif.PhoneLoop

theorem refresh_perm {P n : ℕ} (starts : Fin P → Fin n) (hinj : Function.Injective starts) (ends : List (Fin n))
    (hdisj : ∀ e ∈ ends, ∀ j, starts j ≠ e) (ρ : Equiv.Perm (Fin P)) (w : Fin P → ℝ) (T : TMat n) :
    refresh (fun j => starts (ρ j)) ends (fun j => w (ρ j)) T = refresh starts ends w T := by
  have hinj' : Function.Injective fun j => starts (ρ j) := hinj.comp ρ.injective
  have hdisj' : ∀ e ∈ ends, ∀ j, starts (ρ j) ≠ e := fun e he j => hdisj e he (ρ j)
  funext a d
  by_cases ha : a ∈ ends
  · by_cases hd : ∃ j, starts j = d
    · obtain ⟨j, rfl⟩ := hd
      rw [refresh_start starts hinj w ends _ hdisj a ha j]
      have := refresh_start (fun j => starts (ρ j)) hinj' (fun j => w (ρ j)) ends T hdisj' a ha (ρ.symm j)
      simpa using this
    · push Not at hd
      rw [refresh_other starts hinj w ends _ a d (.inr hd), refresh_other _ hinj' _ ends _ a d (.inr fun j => hd _)]
  · rw [refresh_other starts hinj w ends _ a d (.inl ha), refresh_other _ hinj' _ ends _ a d (.inl ha)]

variable {X : Type} {M S P : ℕ} (conf : LoopConf M S P) (ρ : Equiv.Perm (Fin P)) {inner : SetModel X M}
  {V : inner.State → Prop} {XV : X → Prop}

theorem unitsPerm_units (hU : LoopUnits conf) : LoopUnits (conf.perm ρ) :=
  ⟨hU.starts.comp ρ.injective, hU.ends, fun e he j => hU.disjoint e he (ρ j)⟩

theorem unitsPerm_feasible (T : TMat S) (u : LUtt X M) : LoopFeasible (conf.perm ρ) T u ↔ LoopFeasible conf T u := by
  obtain ⟨fr, ali⟩ := u
  cases ali <;> rfl

theorem unitsPerm_rows (st : LoopState inner S) (a : ℝ) (u : LUtt X M) :
    lrows (conf.perm ρ) inner (st.perm ρ) a u = lrows conf inner st a u := by
  obtain ⟨fr, ali⟩ := u
  cases ali <;> rfl

theorem unitsPerm_counts (st : LoopState inner S) (a : ℝ) (u : LUtt X M) (j : Fin P) :
    lcounts (conf.perm ρ) inner (st.perm ρ) a u j = lcounts conf inner st a u (ρ j) := by
  obtain ⟨fr, ali⟩ := u
  cases ali <;> rfl

theorem unitsPerm_valid (hU : LoopUnits conf) (T : TMat S) (st : LoopState inner S) (hst : LoopValid conf V T st) :
    LoopValid (conf.perm ρ) V T (st.perm ρ) := by
  have hw : ParamValid (DirValid P) (st.perm ρ).weights := ⟨permW_dirValid ρ _ hst.weights.1, permW_dirValid ρ _ hst.weights.2⟩
  refine ⟨hw, hst.comps, ?_⟩
  have h1 := hst.made
  rw [make_eq conf inner T _ _ hst.weights.2] at h1
  rw [make_eq (conf.perm ρ) inner T _ _ hw.2]
  have h2 : st.trans = refresh conf.starts conf.ends (lwOf P st.weights.post) T :=
    (congrArg LoopState.trans (Except.ok.inj h1)).symm
  congr 1
  have h3 : lwOf P (st.perm ρ).weights.post = fun j => lwOf P st.weights.post (ρ j) :=
    funext fun j => lwOf_permW ρ _ hst.weights.2.1 j
  rw [h3]
  have h4 := refresh_perm conf.starts hU.starts conf.ends hU.disjoint ρ (lwOf P st.weights.post) T
  show LoopState.mk (refresh (fun j => conf.starts (ρ j)) conf.ends _ T) _ _ = st.perm ρ
  rw [h4, ← h2]
  rfl

theorem unitsPerm_step (hin : Lawful inner V XV) (hP : 1 ≤ P) (hU : LoopUnits conf) (T : TMat S) (st : LoopState inner S)
    (hst : LoopValid conf V T st) (a : ℝ) (ha : 0 ≤ a) (utts : List (LUtt X M))
    (hu : ∀ u ∈ utts, (∀ t, XV (u.frames.2 t)) ∧ LoopFeasible conf st.trans u) (scale l : ℝ) (hs : 0 ≤ scale)
    (h0 : 0 < l) (h1 : l ≤ 1) :
    ∃ st', loopStep conf inner st a utts scale l = .ok st' ∧ LoopValid conf V T st' ∧
      loopStep (conf.perm ρ) inner (st.perm ρ) a utts scale l = .ok (st'.perm ρ) := by
  have hst' := unitsPerm_valid conf ρ hU T st hst
  obtain ⟨s1, e1, v1, c1, p1, n1, -⟩ := loop_step conf inner V XV hin hP hU T st hst a ha utts hu scale l hs h0 h1
  obtain ⟨s2, e2, v2, c2, p2, n2, -⟩ := loop_step (conf.perm ρ) inner V XV hin hP (unitsPerm_units conf ρ hU) T (st.perm ρ) hst' a
    ha utts (fun u h => ⟨(hu u h).1, (unitsPerm_feasible conf ρ _ u).2 (hu u h).2⟩) scale l hs h0 h1
  refine ⟨s1, e1, v1, ?_⟩
  rw [e2]
  have hc : s2.comps = s1.comps := by
    have : (utts.map (lrows (conf.perm ρ) inner (st.perm ρ) a)) = utts.map (lrows conf inner st a) :=
      List.map_congr_left fun u _ => unitsPerm_rows conf ρ st a u
    rw [this] at c2
    have c2' : inner.step st.comps (utts.map (lrows conf inner st a)).flatten scale l = .ok s2.comps := c2
    rw [c1] at c2'
    exact (Except.ok.inj c2').symm
  have hprior : s2.weights.prior = permW ρ s1.weights.prior := by rw [p2, p1]; rfl
  obtain ⟨q, eq1, vq, nq, -⟩ := (dirConj hP).gain st.weights
    (utts.map fun u => ((1 : ℝ), List.ofFn (lcounts conf inner st a u))) scale l hst.weights (by
      intro r h
      obtain ⟨u, hx, rfl⟩ := List.mem_map.1 h
      refine ⟨zero_le_one, by simp, ?_⟩
      intro v hv
      rw [List.mem_ofFn] at hv
      obtain ⟨j, rfl⟩ := hv
      exact lcounts_nonneg conf inner st a u (hu u hx).2 j) hs h0 h1
  have hq : q = s1.weights.post := by
    refine dir_natural_inj _ _ vq v1.weights.2 hP ?_
    rw [n1]
    have : dirNatural q = _ := nq
    rw [this]
    unfold Conj.acc
    rw [List.map_map]
    rfl
  have hcorr := (dir_corresponds hP ρ).update st.weights
    (utts.map fun u => ((1 : ℝ), List.ofFn (lcounts conf inner st a u))) scale l ⟨st.weights.prior, q⟩ hst.weights (by
      intro r h
      obtain ⟨u, hx, rfl⟩ := List.mem_map.1 h
      refine ⟨zero_le_one, by simp, ?_⟩
      intro v hv
      rw [List.mem_ofFn] at hv
      obtain ⟨j, rfl⟩ := hv
      exact lcounts_nonneg conf inner st a u (hu u hx).2 j) hs h0 h1 eq1
  obtain ⟨q', eq2, vq', nq', -⟩ := (dirConj hP).gain (st.perm ρ).weights
    (utts.map fun u => ((1 : ℝ), permW ρ (List.ofFn (lcounts conf inner st a u)))) scale l hst'.weights (by
      intro r h
      obtain ⟨u, hx, rfl⟩ := List.mem_map.1 h
      refine ⟨zero_le_one, permW_counts ρ _ ⟨by simp, ?_⟩⟩
      intro v hv
      rw [List.mem_ofFn] at hv
      obtain ⟨j, rfl⟩ := hv
      exact lcounts_nonneg conf inner st a u (hu u hx).2 j) hs h0 h1
  have hpost : s2.weights.post = permW ρ s1.weights.post := by
    have hq2 : q' = s2.weights.post := by
      refine dir_natural_inj _ _ vq' v2.weights.2 hP ?_
      rw [n2]
      have : dirNatural q' = _ := nq'
      rw [this]
      unfold Conj.acc
      rw [List.map_map]
      have hm : ∀ u : LUtt X M, catStats (List.ofFn (lcounts (conf.perm ρ) inner (st.perm ρ) a u)) =
          catStats (permW ρ (List.ofFn (lcounts conf inner st a u))) := by
        intro u
        rw [permW_ofFn]
        congr 2
      simp only [hm]
      rfl
    rw [← hq2, ← hq]
    have e : (dirFam P).update (st.perm ρ).weights ((dirConj hP).acc
        (utts.map fun u => ((1 : ℝ), permW ρ (List.ofFn (lcounts conf inner st a u)))) scale) l =
        .ok ⟨permW ρ st.weights.prior, permW ρ q⟩ := by
      rw [← hcorr]
      unfold Conj.acc
      rw [List.map_map, List.map_map]
      rfl
    rw [eq2] at e
    exact congrArg CParam.post (Except.ok.inj e)
  have m1 := v1.made
  have m2 := v2.made
  have m1' := (unitsPerm_valid conf ρ hU T s1 v1).made
  have hw : s2.weights = (s1.perm ρ).weights := by
    show s2.weights = ⟨permW ρ s1.weights.prior, permW ρ s1.weights.post⟩
    rw [← hprior, ← hpost]
  rw [hw, hc] at m2
  rw [← m2]
  exact m1'

theorem unitsPerm_train (hin : Lawful inner V XV) (hP : 1 ≤ P) (hU : LoopUnits conf) (T : TMat S) (a : ℝ) (ha : 0 ≤ a)
    (utts : List (LUtt X M)) (scale : ℝ) (hs : 0 ≤ scale) (ls : List ℝ) :
    ∀ st : LoopState inner S, LoopValid conf V T st → (∀ l ∈ ls, 0 < l ∧ l ≤ 1) →
    (∀ u ∈ utts, (∀ t, XV (u.frames.2 t)) ∧ LoopFeasible conf st.trans u) →
    ∃ st', loopTrain conf inner a utts scale st ls = .ok st' ∧
      loopTrain (conf.perm ρ) inner a utts scale (st.perm ρ) ls = .ok (st'.perm ρ) := by
  induction ls with
  | nil => exact fun st _ _ _ => ⟨st, rfl, rfl⟩
  | cons l ls ih =>
    intro st hst hl hu
    obtain ⟨h0, h1⟩ := hl l (by simp)
    obtain ⟨s1, e1, v1, e2⟩ := unitsPerm_step conf ρ hin hP hU T st hst a ha utts hu scale l hs h0 h1
    obtain ⟨st', e3, e4⟩ := ih s1 v1 (fun l h => hl l (by simp [h])) fun u h =>
      ⟨(hu u h).1, valid_feasible conf V hU T st s1 hst v1 u (hu u h).2⟩
    refine ⟨st', ?_, ?_⟩
    · rw [loopTrain, e1]
      exact e3
    · rw [loopTrain, e2]
      exact e4

end Verif.VB
