import Verif.Lemmas.LoopVB
import Verif.Lemmas.SBTrain
import Verif.Spec.LoopWeights
import Verif.Props.SBHyper

/-!
# Lemmas on the training of phone loops with other weights
-/

namespace Verif.VB

open Real Verif.Dists Verif.DistSpec Verif.Spec Verif.PhoneLoop Verif.MkLoop Verif.Props

variable {X ι : Type} [Fintype ι] {M S P : ℕ}

/-! ## Laws of the two parts -/

/-- What the proof uses of a class of phone loops: `δ` is the change of the logarithm of a transition, `first` the counts of the
first frame. -/
structure InstallLaw (L : LoopClass ι S) (δ : (ι → ℝ) → (ι → ℝ) → Fin S → Fin S → ℝ) (first : (Fin S → ℝ) → ι → ℝ) : Prop where
  again : ∀ w w' T, L.install w' (L.install w T) = L.install w' T
  shift : ∀ w w' T i j, lexp (L.install w' (L.install w T) i j) = lexp (L.install w T i j) * exp (δ w w' i j)
  counts : ∀ n r x w w', ∑ i, L.counts n r x i * (w' i - w i) =
    ∑ t, ∑ s, ∑ d, x t s d * δ w w' s d + ∑ i, first r i * (w' i - w i)
  nonneg : ∀ n r x, (∀ s, 0 ≤ r s) → (∀ t s d, 0 ≤ x t s d) → ∀ i, 0 ≤ L.counts n r x i

/-- What it uses of a model of weights: the divergence does not grow more than the expected log-likelihood of the counts under the
`learnt` log-weights. -/
def GainLaw (W : WeightModel ι) (VW : W.State → Prop) (div : W.State → ℝ) (learnt : W.State → ι → ℝ)
    (cond : W.State → W.State → ℝ → Prop) : Prop :=
  ∀ s n l, VW s → (∀ i, 0 ≤ n i) → 0 < l → l ≤ 1 → ∃ s', W.update s n l = .ok s' ∧ VW s' ∧
    (cond s s' l → div s' - div s ≤ ∑ i, n i * (learnt s' i - learnt s i))

/-! ## One utterance -/

section
variable {inner : SetModel X M} {W : WeightModel ι} (conf : WConf M S) (L : LoopClass ι S)

/-- The same state for the lemmas on `LoopState`. -/
noncomputable def toConf : LoopConf M S 0 := ⟨conf.init, conf.final, conf.order, Fin.elim0, []⟩

noncomputable def toLoop (st : WState inner W S) : LoopState inner S := ⟨st.trans, ⟨[], []⟩, st.comps⟩

omit [Fintype ι] in
theorem toLoop_feasible (T : TMat S) (u : LUtt X M) : WFeasible conf T u ↔ LoopFeasible (toConf conf) T u := by
  unfold WFeasible LoopFeasible
  rfl

/-- The counts of an utterance. -/
noncomputable def wcounts (st : WState inner W S) (a : ℝ) (u : LUtt X M) (i : ι) : ℝ :=
  match u.ali with
  | none => L.counts u.frames.1 (gam (st.graph conf) (scoresOf (orderedSet conf.order inner) st.comps a u.frames) 0)
      (transPosts (st.graph conf) (asLog (scoresOf (orderedSet conf.order inner) st.comps a u.frames))) i
  | some _ => 0

variable (V : inner.State → Prop) (XV : X → Prop)

omit [Fintype ι] in
theorem wAcc_eq (hin : Lawful inner V XV) (st : WState inner W S) (hv : V st.comps) (a : ℝ)
    (u : LUtt X M) (hx : ∀ t, XV (u.frames.2 t)) (hf : WFeasible conf st.trans u)
    (hal : u.ali = none ∨ L.aligned = .ok fun _ => 0) :
    wAcc conf L st a u = .ok (lrows (toConf conf) inner (toLoop st) a u, wcounts conf L st a u) := by
  obtain ⟨fr, ali⟩ := u
  cases ali with
  | none =>
    have hf' : Feasible (st.graph conf) fr := hf
    have ho := orderedSet_lawful conf.order inner V XV hin
    unfold wAcc lrows wcounts
    dsimp only
    rw [hmmRows_eq (st.graph conf) (orderedSet conf.order inner) V XV ho st.comps hv a fr hx hf', ok_bind,
      hmmLlhs_eq (orderedSet conf.order inner) V XV ho st.comps hv a fr hx]
    simp only [ok_bind]
    rw [hmmResps_eq _ _ (evidence_pos_of_feasible _ hf' _)]
    rfl
  | some z =>
    obtain ⟨S', g, order⟩ := z
    have hf' : Feasible g fr := hf
    have ho := orderedSet_lawful order inner V XV hin
    unfold wAcc lrows wcounts
    dsimp only
    rw [hmmRows_eq g (orderedSet order inner) V XV ho st.comps hv a fr hx hf', ok_bind,
      hal.resolve_left (by simp)]
    rfl

omit [Fintype ι] in
theorem wAcc_aligned (hin : Lawful inner V XV) (st : WState inner W S) (hv : V st.comps) (a : ℝ)
    (u : LUtt X M) (hx : ∀ t, XV (u.frames.2 t)) (hf : WFeasible conf st.trans u) (hu : u.ali ≠ none) (e : Err)
    (hal : L.aligned = .error e) : wAcc conf L st a u = .error e := by
  obtain ⟨fr, ali⟩ := u
  cases ali with
  | none => exact absurd rfl hu
  | some z =>
    obtain ⟨S', g, order⟩ := z
    have hf' : Feasible g fr := hf
    have ho := orderedSet_lawful order inner V XV hin
    unfold wAcc
    dsimp only
    rw [hmmRows_eq g (orderedSet order inner) V XV ho st.comps hv a fr hx hf', ok_bind, hal]
    rfl

theorem wcounts_nonneg {δ : (ι → ℝ) → (ι → ℝ) → Fin S → Fin S → ℝ} {first : (Fin S → ℝ) → ι → ℝ} (hL : InstallLaw L δ first)
    (st : WState inner W S) (a : ℝ) (u : LUtt X M) (hf : WFeasible conf st.trans u) (i : ι) :
    0 ≤ wcounts conf L st a u i := by
  obtain ⟨fr, ali⟩ := u
  cases ali with
  | none =>
    have hf' : Feasible (st.graph conf) fr := hf
    exact hL.nonneg _ _ _ (gam_nonneg _ _ _) (fun t s d => transPosts_nonneg _ _ (evidence_pos_of_feasible _ hf' _) _ _ _) i
  | some z => exact le_rfl

/-- The gain of one utterance. -/
theorem w_utt_gain (hin : Lawful inner V XV) {δ : (ι → ℝ) → (ι → ℝ) → Fin S → Fin S → ℝ} {first : (Fin S → ℝ) → ι → ℝ}
    (hL : InstallLaw L δ first) (hzero : first (fun _ => 0) = fun _ => 0) (T : TMat S) (st st' : WState inner W S) (w w' : ι → ℝ)
    (h1 : st.trans = L.install w T) (h2 : st'.trans = L.install w' st.trans) (hv : V st.comps) (hv' : V st'.comps) (a : ℝ)
    (u : LUtt X M) (hx : ∀ t, XV (u.frames.2 t)) (hf : WFeasible conf st.trans u) :
    ((lrows (toConf conf) inner (toLoop st) a u).map fun r =>
        ∑ m, r.2 m * (valueOf 0 (inner.llh st'.comps r.1) m - valueOf 0 (inner.llh st.comps r.1) m)).sum +
      ∑ i, wcounts conf L st a u i * (w' i - w i) ≤
    wLogProb conf a st' u - wLogProb conf a st u + ∑ i, first (wStartProb conf a st u) i * (w' i - w i) := by
  have rowsum : ∀ {S' : ℕ} (g : CGraph S') (order : Fin S' → Fin M),
      ((pdfRows order (List.ofFn fun t => (u.frames.2 t, fun s =>
        a * gam g (scoresOf (orderedSet order inner) st.comps a u.frames) t s))).map fun r =>
        ∑ m, r.2 m * (valueOf 0 (inner.llh st'.comps r.1) m - valueOf 0 (inner.llh st.comps r.1) m)).sum =
      ∑ t, ∑ s, gam g (scoresOf (orderedSet order inner) st.comps a u.frames) t s *
        (scoresOf (orderedSet order inner) st'.comps a u.frames t s -
          scoresOf (orderedSet order inner) st.comps a u.frames t s) := by
    intro S' g order
    rw [pdfRows_sum order _ fun x m => valueOf 0 (inner.llh st'.comps x) m - valueOf 0 (inner.llh st.comps x) m,
      List.map_ofFn, List.sum_ofFn]
    refine Finset.sum_congr rfl fun t _ => Finset.sum_congr rfl fun s _ => ?_
    rw [scoresOf_ordered inner V XV hin order _ hv a _ hx, scoresOf_ordered inner V XV hin order _ hv' a _ hx]
    ring
  obtain ⟨fr, ali⟩ := u
  cases ali with
  | none =>
    have hf' : Feasible (st.graph conf) fr := hf
    have hev := evidence_pos_of_feasible _ hf' (scoresOf (orderedSet conf.order inner) st.comps a fr)
    have key := graph_gain (st.graph conf) st'.trans (δ w w') (by
      intro i j
      rw [h2]
      show lexp (L.install w' st.trans i j) = lexp (st.trans i j) * _
      rw [h1]
      exact hL.shift w w' T i j)
      (scoresOf (orderedSet conf.order inner) st.comps a fr) (scoresOf (orderedSet conf.order inner) st'.comps a fr) hev
    have hr := rowsum (st.graph conf) conf.order
    have hc := hL.counts fr.1 (gam (st.graph conf) (scoresOf (orderedSet conf.order inner) st.comps a fr) 0)
      (transPosts (st.graph conf) (asLog (scoresOf (orderedSet conf.order inner) st.comps a fr))) w w'
    have hsp : wStartProb conf a st ⟨fr, none⟩ =
        gam (st.graph conf) (scoresOf (orderedSet conf.order inner) st.comps a fr) 0 := by
      funext s
      unfold wStartProb
      dsimp only
      rw [← asLog_scores inner V XV hin conf.order st.comps hv a fr hx]
      rfl
    rw [hsp]
    unfold lrows wcounts wLogProb
    have hr' : (List.map (fun r : X × (Fin M → ℝ) => ∑ m, r.2 m * (valueOf 0 (inner.llh st'.comps r.1) m - valueOf 0 (inner.llh st.comps r.1) m))
        (pdfRows (toConf conf).order (List.ofFn fun t => (fr.2 t, fun s =>
          a * gam ((toLoop st).graph (toConf conf)) (scoresOf (orderedSet (toConf conf).order inner) (toLoop st).comps a fr) t s)))).sum = _ := hr
    dsimp only
    rw [hr', hc]
    rw [← asLog_scores inner V XV hin conf.order st.comps hv a fr hx,
      ← asLog_scores inner V XV hin conf.order st'.comps hv' a fr hx]
    have e' : (⟨(st.graph conf).init, (st.graph conf).final, st'.trans⟩ : CGraph S) = st'.graph conf := rfl
    rw [e'] at key
    linarith
  | some z =>
    obtain ⟨S', g, order⟩ := z
    have hf' : Feasible g fr := hf
    have hev := evidence_pos_of_feasible _ hf' (scoresOf (orderedSet order inner) st.comps a fr)
    have key := evidence_gain g (scoresOf (orderedSet order inner) st.comps a fr)
      (scoresOf (orderedSet order inner) st'.comps a fr) hev
    have hr := rowsum g order
    have hsp : wStartProb conf a st ⟨fr, some ⟨S', g, order⟩⟩ = fun _ => 0 := rfl
    rw [hsp, hzero]
    unfold lrows wcounts wLogProb
    dsimp only at hr ⊢
    have hr' : (List.map (fun r : X × (Fin M → ℝ) => ∑ m, r.2 m * (valueOf 0 (inner.llh st'.comps r.1) m - valueOf 0 (inner.llh st.comps r.1) m))
        (pdfRows order (List.ofFn fun t => (fr.2 t, fun s =>
          a * gam g (scoresOf (orderedSet order inner) (toLoop st).comps a fr) t s)))).sum = _ := hr
    rw [hr']
    rw [← asLog_scores inner V XV hin order st.comps hv a fr hx,
      ← asLog_scores inner V XV hin order st'.comps hv' a fr hx]
    simp only [zero_mul, Finset.sum_const_zero, add_zero]
    exact key

/-! ## A step -/

/-- A step succeeds; what its result satisfies. -/
theorem w_step (hin : Lawful inner V XV) {δ : (ι → ℝ) → (ι → ℝ) → Fin S → Fin S → ℝ} {first : (Fin S → ℝ) → ι → ℝ}
    (hL : InstallLaw L δ first) (hzero : first (fun _ => 0) = fun _ => 0) {VW : W.State → Prop} {div : W.State → ℝ}
    {learnt : W.State → ι → ℝ} {cond : W.State → W.State → ℝ → Prop} (hW : GainLaw W VW div learnt cond) (T : TMat S)
    (st : WState inner W S) (hst : WValid L V VW T st) (a : ℝ) (ha : 0 ≤ a) (utts : List (LUtt X M))
    (hu : ∀ u ∈ utts, (∀ t, XV (u.frames.2 t)) ∧ WFeasible conf st.trans u)
    (hal : ∀ u ∈ utts, u.ali = none ∨ L.aligned = .ok fun _ => 0) (scale l : ℝ) (hs : 0 ≤ scale) (h0 : 0 < l) (h1 : l ≤ 1) :
    ∃ st', wStep conf L st a utts scale l = .ok st' ∧ WValid L V VW T st' ∧
      inner.step st.comps (utts.map (lrows (toConf conf) inner (toLoop st) a)).flatten scale l = .ok st'.comps ∧
      W.update st.weights (fun i => scale * (utts.map fun u => wcounts conf L st a u i).sum) l = .ok st'.weights ∧
      (cond st.weights st'.weights l →
        wObjective div conf a utts scale st ≤ wObjective div conf a utts scale st' +
          scale * (utts.map fun u => ∑ i, first (wStartProb conf a st u) i *
            (W.logW st'.weights i - W.logW st.weights i)).sum +
          ∑ i, scale * (utts.map fun u => wcounts conf L st a u i).sum *
            ((learnt st'.weights i - learnt st.weights i) - (W.logW st'.weights i - W.logW st.weights i))) := by
  have hacc : utts.mapM (wAcc conf L st a) = .ok (utts.map fun u =>
      (lrows (toConf conf) inner (toLoop st) a u, wcounts conf L st a u)) :=
    mapM_ok_map _ _ utts fun u h => wAcc_eq conf L V XV hin st hst.comps a u (hu u h).1 (hu u h).2 (hal u h)
  obtain ⟨s', e1, v1, g1⟩ := hin.step_ok st.comps ((utts.map (lrows (toConf conf) inner (toLoop st) a)).flatten) scale l
    hst.comps (by
    intro r h
    obtain ⟨L', hL', hr⟩ := List.mem_flatten.1 h
    obtain ⟨u, hu', rfl⟩ := List.mem_map.1 hL'
    exact lrows_ok (toConf conf) inner V XV hin (toLoop st) a ha u (hu u hu').1 r hr) hs h0 h1
  obtain ⟨w', e2, v2, g2⟩ := hW st.weights (fun i => scale * (utts.map fun u => wcounts conf L st a u i).sum) l hst.weights
    (fun i => mul_nonneg hs (List.sum_nonneg (by
      intro v hv
      obtain ⟨u, hu', rfl⟩ := List.mem_map.1 hv
      exact wcounts_nonneg conf L hL st a u (hu u hu').2 i))) h0 h1
  have hT : st.trans = L.install (W.logW st.weights) T := (congrArg WState.trans hst.made).symm
  have hval : WValid L V VW T (⟨L.install (W.logW w') st.trans, w', s'⟩ : WState inner W S) := by
    refine ⟨v2, v1, ?_⟩
    show WState.mk (L.install (W.logW w') T) w' s' = _
    rw [hT, hL.again]
  refine ⟨⟨L.install (W.logW w') st.trans, w', s'⟩, ?_, hval, e1, e2, fun hc => ?_⟩
  · unfold wStep
    rw [hacc, ok_bind, List.map_map]
    have h1 : (inner.step st.comps (List.map (Prod.fst ∘ fun u =>
        (lrows (toConf conf) inner (toLoop st) a u, wcounts conf L st a u)) utts).flatten scale l) = .ok s' := e1
    rw [h1, ok_bind]
    have h2 : W.update st.weights (fun i => scale * (((utts.map fun u =>
        (lrows (toConf conf) inner (toLoop st) a u, wcounts conf L st a u)).map fun c : List (X × (Fin M → ℝ)) × (ι → ℝ) => c.2 i).sum)) l =
        .ok w' := by
      rw [← e2]
      congr 1
      funext i
      rw [List.map_map]
      rfl
    rw [h2, ok_bind]
    rfl
  · have g2' := g2 hc
    dsimp only
    set st' : WState inner W S := ⟨L.install (W.logW w') st.trans, w', s'⟩ with hst'
    have key : (utts.map fun u => ((lrows (toConf conf) inner (toLoop st) a u).map fun r =>
          ∑ m, r.2 m * (valueOf 0 (inner.llh s' r.1) m - valueOf 0 (inner.llh st.comps r.1) m)).sum +
          ∑ i, wcounts conf L st a u i * (W.logW w' i - W.logW st.weights i)).sum ≤
        (utts.map fun u => wLogProb conf a st' u - wLogProb conf a st u +
          ∑ i, first (wStartProb conf a st u) i * (W.logW w' i - W.logW st.weights i)).sum :=
      sum_map_le utts _ _ fun u h => w_utt_gain conf L V XV hin hL hzero T st st' _ _ hT rfl hst.comps v1 a u
        (hu u h).1 (hu u h).2
    rw [sum_flatten_map] at g1
    rw [List.sum_map_add, List.sum_map_add, sum_map_sub'] at key
    have key' := mul_le_mul_of_nonneg_left key hs
    rw [mul_add, mul_add, mul_sub] at key'
    have sw : scale * (utts.map fun u => ∑ i, wcounts conf L st a u i * (W.logW w' i - W.logW st.weights i)).sum =
        ∑ i, scale * (utts.map fun u => wcounts conf L st a u i).sum * (W.logW w' i - W.logW st.weights i) := by
      simp only [mul_assoc, ← Finset.mul_sum]
      congr 1
      clear hacc e1 g1 e2 g2 g2' key key' hu hal hst' hval
      induction utts with
      | nil => simp
      | cons u l ih => simp only [List.map_cons, List.sum_cons, ih, add_mul, Finset.sum_add_distrib]
    rw [sw] at key'
    have ex : ∑ i, scale * (utts.map fun u => wcounts conf L st a u i).sum *
        ((learnt w' i - learnt st.weights i) - (W.logW w' i - W.logW st.weights i)) =
        ∑ i, scale * (utts.map fun u => wcounts conf L st a u i).sum * (learnt w' i - learnt st.weights i) -
        ∑ i, scale * (utts.map fun u => wcounts conf L st a u i).sum * (W.logW w' i - W.logW st.weights i) := by
      rw [← Finset.sum_sub_distrib]
      exact Finset.sum_congr rfl fun i _ => by ring
    rw [ex]
    unfold wObjective
    show _ ≤ _ - valueOf 0 (inner.kl s') - div w' + _ + _
    linarith

end

end Verif.VB
