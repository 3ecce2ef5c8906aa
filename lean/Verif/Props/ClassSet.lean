import Verif.Spec.ClassSet
import Verif.Lemmas.Labelled
import Verif.Props.HierGSM
import Verif.Props.GSM

/-!
# C149: mixtures over a set of subspace models
-/

namespace Verif.Props

open Verif Verif.GSM Verif.GSMSpec Verif.Dists Verif.DistSpec Verif.Mixture Real Matrix

variable {I J R Qp Qd Q N K L P : ℕ}

/-! ## Helpers -/

/-- One iteration of training with learning rate one. -/
theorem iter_spec {V : Type} [AddCommGroup V] [Module ℝ V] (groups : List (List ℕ)) (c : ℕ) (h : Heap V)
    (v : Elbo ℝ V) (ht : v.isTensor = true) (hm : v.mb ≠ 0) (hn : groups.flatten.Nodup) :
    ∃ s, trainIter (fun _ => v) (⟨groups, (1 : ℝ), c⟩, h) = .ok s ∧ s.1 = ⟨groups, 1, c + 1⟩ ∧
      (∀ g (hg : g < groups.length), ∀ p ∈ groups[g], ∀ x, p ∈ v.params → v.acc p = some x →
        (s.2 p).post = if c % groups.length = g then (h p).prior + ((v.datasize : ℝ) / (v.mb : ℝ)) • x
          else (h p).post) ∧
      ∀ p, p ∉ groups.flatten → (s.2 p).post = (h p).post := by
  set o : CjgOptim ℝ := ⟨groups, 1, c⟩ with ho
  have hb : v.backward (F := ℝ) true (o.initStep h) = .ok (fun i =>
      if i ∈ v.params then
        match v.acc i with
        | some s => (o.initStep h i).storeStats (((v.datasize : ℝ) / (v.mb : ℝ)) • s)
        | none => o.initStep h i
      else o.initStep h i) := by
    unfold Elbo.backward
    rw [ht]
    simp only [Bool.not_true, Bool.and_false, Bool.false_eq_true, if_false, hm]
    congr 1
  set h1 : Heap V := fun i =>
      if i ∈ v.params then
        match v.acc i with
        | some s => (o.initStep h i).storeStats (((v.datasize : ℝ) / (v.mb : ℝ)) • s)
        | none => o.initStep h i
      else o.initStep h i with hh1
  have hpost : ∀ p, (h1 p).post = (h p).post ∧ (h1 p).prior = (h p).prior := by
    intro p
    have hi : (o.initStep h p).post = (h p).post ∧ (o.initStep h p).prior = (h p).prior := by
      rw [initStep_apply]
      split_ifs <;> exact ⟨rfl, rfl⟩
    rw [hh1]
    dsimp only
    split
    · split
      · exact hi
      · exact hi
    · exact hi
  obtain ⟨c1, c2, c3⟩ := C28_step_updates_one_group o h1 hn
  refine ⟨o.step h1, ?_, c1, ?_, ?_⟩
  · unfold trainIter
    dsimp only
    rw [hb]
  · intro g hg p hp x hx ha
    rw [c2 g hg p hp]
    split_ifs with hc
    · have hst : (h1 p).stats = ((v.datasize : ℝ) / (v.mb : ℝ)) • x := by
        rw [hh1]
        dsimp only
        rw [if_pos hx, ha]
        rfl
      simp only [Param.update, one_smul, (hpost p).1, (hpost p).2, hst, ho]
      abel
    · exact (hpost p).1
  · intro p hp
    rw [c3 p hp]
    exact (hpost p).1

theorem groups_eq (i : SetIds) :
    i.groups = [[i.prior, i.cat], [i.means], [i.meanPrior], [i.weights, i.bias], [i.disc]] := rfl

theorem cjgGroups_eq (i : SetIds) (hd : Distinct i) : i.cjgGroups = [[i.prior, i.cat], [i.meanPrior]] := by
  unfold Distinct at hd
  simp only [List.nodup_cons, List.mem_cons, List.not_mem_nil, or_false, not_or] at hd
  obtain ⟨⟨h1, h2, h3, h4, h5, h6⟩, ⟨k1, k2, k3, k4, k5⟩, ⟨m1, m2, m3, m4⟩, ⟨d1, d2, d3⟩, -⟩ := hd
  unfold SetIds.cjgGroups
  rw [groups_eq]
  simp [ModelSet.bayesGroups, Ne.symm h2, Ne.symm k1, Ne.symm h4, Ne.symm k3, Ne.symm d1, Ne.symm h5, Ne.symm k4,
    Ne.symm d2, Ne.symm h6, Ne.symm k5, Ne.symm d3, m1]

theorem kl_groups (kl : ℕ → ℝ) (m : ℝ) (i : SetIds) (hd : Distinct i) :
    klOfGroups (fun j => if j = i.means then m else kl j) i.groups = m + otherKl kl i := by
  unfold Distinct at hd
  simp only [List.nodup_cons, List.mem_cons, List.not_mem_nil, or_false, not_or] at hd
  obtain ⟨⟨h1, h2, h3, h4, h5, h6⟩, ⟨k1, k2, k3, k4, k5⟩, ⟨m1, m2, m3, m4⟩, -⟩ := hd
  rw [groups_eq]
  unfold klOfGroups otherKl
  simp [h2, k1, Ne.symm m1, Ne.symm m2, Ne.symm m3, Ne.symm m4]
  ring

theorem pdfvecs_class (g : ClassSet I J R Qp Qd Q N K) (posts : Fin N → MLDC I) (e : SetNoise I J R N K L P)
    (k : Fin K) (n : Fin N) :
    g.pdfvecs posts e.unit e.mean e.weights e.bias e.disc k n = classVec g posts e n k := by
  funext q
  rw [C104_pdfvecs]
  rfl

theorem expLlh_pair (hL : 0 < L) (g : ClassSet I J R Qp Qd Q N K) (posts : Fin N → MLDC I)
    (stats : Fin N → Fin Q → ℝ) (e : SetNoise I J R N K L P) (n : Fin N) (k : Fin K) :
    g.toSetModel.expLlh posts stats e.unit e.mean e.weights e.bias e.disc n k = pairValue g posts stats e n k := by
  rw [C104_pairs hL, pdfvecs_class]
  rfl

theorem meansKl_eq (hL : 0 < L) (g : ClassSet I J R Qp Qd Q N K) (e : SetNoise I J R N K L P) :
    g.meansKl e.mean = ∑ k, classDiv g e k := by
  unfold ClassSet.meansKl
  dsimp only
  refine Finset.sum_congr rfl fun k _ => ?_
  rw [xentropy_eq, entropyOf_eq hL]
  simp only [mldc_sample]
  unfold classDiv
  have : classStats g e = fun k q => average fun l =>
      g.meanStats (drawn (g.means k).mean (g.means k).diagCov (e.mean k l)) q := rfl
  rw [this]
  unfold classDraw
  ring

/-- The objective from the local quantities of the units. -/
theorem classElbo_ok (hN : 0 < N) (hL : 0 < L) (kl : ℕ → ℝ) (g : ClassSet I J R Qp Qd Q N K) (ids : SetIds)
    (hd : Distinct ids) (lw : Fin K → ℝ) (posts : Fin N → MLDC I) (stats : Fin N → Fin Q → ℝ)
    (e : SetNoise I J R N K L P) (labels : Option (Fin N → ℤ)) (datasize : ℤ) (outs : Fin N → LocalOut K)
    (ho : ∀ n, classLocal lw (fun k => pairValue g posts stats e n k) (labels.map fun y => y n) = .ok (outs n)) :
    ∃ v w, classElbo kl g ids lw posts stats e labels datasize = .ok (v, w) ∧
      v.value = VB.batchFactor N datasize * ∑ n, (outs n).value - (∑ k, classDiv g e k + otherKl kl ids) ∧
      (∀ n q, w n q = ∑ k, (outs n).resps k * classVec g posts e n k q) ∧
      v.isTensor = true ∧ v.mb ≠ 0 ∧ (v.datasize : ℝ) / (v.mb : ℝ) = VB.batchFactor N datasize ∧
      v.params = ids.groups.flatten.toFinset ∧
      v.acc ids.cat = some (pad (mixCatStats (List.ofFn fun n => (outs n).resps))) ∧
      v.acc ids.prior = some (pad (List.ofFn fun q => ∑ n, unitStats g posts e n q)) ∧
      v.acc ids.meanPrior = some (pad (List.ofFn fun q => ∑ k, classStats g e k q)) := by
  have hl : ∀ n, g.toSetModel.expLlh posts stats e.unit e.mean e.weights e.bias e.disc n =
      fun k => pairValue g posts stats e n k := fun n => funext fun k => expLlh_pair hL g posts stats e n k
  have hs : (VB.seqFin fun n => classLocal lw
      (g.toSetModel.expLlh posts stats e.unit e.mean e.weights e.bias e.disc n) (labels.map fun y => y n)) =
      .ok outs := VB.seqFin_ok _ _ fun n => by rw [hl]; exact ho n
  have hN' : (N : ℝ) ≠ 0 := by exact_mod_cast hN.ne'
  have hfac : (((if datasize ≤ 0 then (N : ℤ) else datasize : ℤ) : ℝ) / (N : ℝ)) = VB.batchFactor N datasize := by
    unfold VB.batchFactor
    split_ifs
    · push_cast
      exact div_self hN'
    · rfl
  have hdd := hd
  unfold Distinct at hdd
  simp only [List.nodup_cons, List.mem_cons, List.not_mem_nil, or_false, not_or] at hdd
  obtain ⟨⟨h1, h2, h3, h4, h5, h6⟩, ⟨k1, k2, k3, k4, k5⟩, -⟩ := hdd
  unfold classElbo
  dsimp only
  rw [hs]
  unfold evidenceLowerBound
  simp only [List.length_finRange, hN.ne', if_false]
  refine ⟨_, _, rfl, ?_, ?_, rfl, hN.ne', hfac, rfl, ?_, ?_, ?_⟩
  · dsimp only
    rw [hfac, kl_groups kl _ ids hd, meansKl_eq hL]
  · intro n q
    unfold SetModel.weighted
    refine Finset.sum_congr rfl fun k _ => ?_
    rw [pdfvecs_class]
  · simp [mergeAcc, normalAccP, catAccP, h1, h3]
  · simp only [mergeAcc, normalAccP, if_true]
    congr 3
    funext q
    refine Finset.sum_congr rfl fun n _ => ?_
    rw [lpStats_eq]
    simp only [mldc_sample]
    rfl
  · simp only [mergeAcc, normalAccP, if_true, Ne.symm k2, if_false]
    congr 3
    funext q
    refine Finset.sum_congr rfl fun n _ => ?_
    rw [lpStats_eq]
    simp only [mldc_sample]
    rfl

theorem mixLocal_resps (hK : 0 < K) (lw llh : Fin K → ℝ) (k : Fin K) :
    (mixLocal lw llh).resps k = exp (lw k) * exp (llh k) / ∑ j, exp (lw j) * exp (llh j) := by
  have e : ∑ j, exp (lw j) * exp (llh j) = ∑ j, exp (llh j + lw j) :=
    Finset.sum_congr rfl fun k _ => by rw [exp_add, mul_comm]
  have hp : 0 < ∑ j, exp (llh j + lw j) :=
    Finset.sum_pos (fun k _ => exp_pos _) ⟨⟨0, hK⟩, Finset.mem_univ _⟩
  rw [e]
  simp only [mixLocal]
  rw [exp_sub, exp_log hp, exp_add, mul_comm]

theorem classLocal_some (lw llh : Fin K → ℝ) (y : ℤ) (k : Fin K) (h : VB.labelClass K y = some k) :
    classLocal lw llh (some y) = .ok ⟨VB.indicator k, llh k⟩ := by
  obtain ⟨row, e1, e2⟩ := VB.onehotRow_class K y k h
  unfold classLocal
  simp only [e1, VB.labelledFrame_eq llh row k e2]

theorem classLocal_none (lw llh : Fin K → ℝ) (y : ℤ) (h : VB.labelClass K y = none) :
    classLocal lw llh (some y) = .error .indexError := by
  unfold classLocal
  simp only [VB.onehotRow_none K y h]

/-! ## C149 -/

/-- C149, the objective without labels: the log of the weighted sum over the classes of every unit, scaled, minus the
divergences of the class means, counted once each, and of the other parameters. The pdf-vector written into a unit is the
mean over the classes with their probabilities. -/
theorem C149_objective (hN : 0 < N) (hL : 0 < L) (hK : 0 < K) (kl : ℕ → ℝ) (g : ClassSet I J R Qp Qd Q N K)
    (ids : SetIds) (hd : Distinct ids) (lw : Fin K → ℝ) (posts : Fin N → MLDC I) (stats : Fin N → Fin Q → ℝ)
    (e : SetNoise I J R N K L P) (datasize : ℤ) :
    ∃ v w, classElbo kl g ids lw posts stats e none datasize = .ok (v, w) ∧
      v.value = VB.batchFactor N datasize *
        ∑ n, log (∑ k, exp (lw k) * exp (classVec g posts e n k ⬝ᵥ stats n - unitDiv g posts e n)) -
        (∑ k, classDiv g e k + otherKl kl ids) ∧
      ∀ n q, w n q = ∑ k, classProb g posts stats e lw n k * classVec g posts e n k q := by
  obtain ⟨v, w, h1, h2, h3, -⟩ := classElbo_ok hN hL kl g ids hd lw posts stats e none datasize
    (fun n => mixLocal lw fun k => pairValue g posts stats e n k) (fun _ => rfl)
  refine ⟨v, w, h1, ?_, ?_⟩
  · rw [h2]
    simp only [C44_value hK]
    rfl
  · intro n q
    rw [h3]
    refine Finset.sum_congr rfl fun k _ => ?_
    rw [mixLocal_resps hK]
    rfl

/-- C149, with labels: every unit has the value and the pdf-vector of its class; the weights of the classes do not
matter. -/
theorem C149_labelled (hN : 0 < N) (hL : 0 < L) (kl : ℕ → ℝ) (g : ClassSet I J R Qp Qd Q N K)
    (ids : SetIds) (hd : Distinct ids) (lw : Fin K → ℝ) (posts : Fin N → MLDC I) (stats : Fin N → Fin Q → ℝ)
    (e : SetNoise I J R N K L P) (labels : Fin N → ℤ) (y : Fin N → Fin K)
    (hy : ∀ n, VB.labelClass K (labels n) = some (y n)) (datasize : ℤ) :
    ∃ v w, classElbo kl g ids lw posts stats e (some labels) datasize = .ok (v, w) ∧
      v.value = VB.batchFactor N datasize *
        ∑ n, (classVec g posts e n (y n) ⬝ᵥ stats n - unitDiv g posts e n) -
        (∑ k, classDiv g e k + otherKl kl ids) ∧
      ∀ n, w n = classVec g posts e n (y n) := by
  obtain ⟨v, w, h1, h2, h3, -⟩ := classElbo_ok hN hL kl g ids hd lw posts stats e (some labels) datasize
    (fun n => ⟨VB.indicator (y n), pairValue g posts stats e n (y n)⟩) fun n => classLocal_some _ _ _ _ (hy n)
  refine ⟨v, w, h1, h2, fun n => funext fun q => ?_⟩
  rw [h3]
  exact VB.indicator_sum (y n) fun k => classVec g posts e n k q

/-- C149, error branches: no unit; a label that is no class. -/
theorem C149_errors (kl : ℕ → ℝ) (g : ClassSet I J R Qp Qd Q N K) (ids : SetIds) (lw : Fin K → ℝ)
    (posts : Fin N → MLDC I) (stats : Fin N → Fin Q → ℝ) (e : SetNoise I J R N K L P) (labels : Option (Fin N → ℤ))
    (datasize : ℤ) :
    (N = 0 → classElbo kl g ids lw posts stats e labels datasize = .error .zeroDivision) ∧
    ((∃ ls n, labels = some ls ∧ (ls n < -K ∨ (K : ℤ) ≤ ls n)) →
      classElbo kl g ids lw posts stats e labels datasize = .error .indexError) := by
  constructor
  · rintro rfl
    rfl
  · rintro ⟨ls, n, rfl, hn⟩
    have hs : ∀ {M : ℕ} (f : Fin M → Except Err (LocalOut K)) (m : Fin M), f m = .error .indexError →
        (∀ m, (∃ o, f m = .ok o) ∨ f m = .error .indexError) → VB.seqFin f = .error .indexError := by
      intro M
      induction M with
      | zero => exact fun f m => m.elim0
      | succ M ih =>
        intro f m hm hf
        unfold VB.seqFin
        rcases hf 0 with ⟨o, h0⟩ | h0
        · rw [h0]
          have hm0 : m ≠ 0 := by
            rintro rfl
            rw [h0] at hm
            cases hm
          obtain ⟨m', rfl⟩ := Fin.exists_succ_eq.2 hm0
          have := ih (fun i => f i.succ) m' hm fun i => hf i.succ
          simp only [this]
        · rw [h0]
    unfold classElbo
    dsimp only
    rw [hs _ n]
    · refine classLocal_none _ _ _ ?_
      show VB.labelClass K (ls n) = none
      unfold VB.labelClass
      rw [dif_neg (by omega), dif_neg (by omega)]
    · intro m
      cases hc : VB.labelClass K (ls m) with
      | none => exact Or.inr (classLocal_none _ _ _ hc)
      | some k => exact Or.inl ⟨_, classLocal_some _ _ _ k hc⟩

/-- C149, training: an epoch of learning rate one updates the prior of the units and the weights of the mixture (even
number of steps before) or the prior of the class means (odd number). The prior of the units gets its prior plus the scaled
statistics of the units; the weights get the scaled probabilities of the classes (natural parameters: the last number is
the sum); the prior of the class means gets the **scaled** statistics of the class means. -/
theorem C149_training (hN : 0 < N) (hL : 0 < L) (hK : 0 < K) (kl : ℕ → ℝ) (g : ClassSet I J R Qp Qd Q N K)
    (ids : SetIds) (hd : Distinct ids) (lw : Fin K → ℝ) (posts : Fin N → MLDC I) (stats : Fin N → Fin Q → ℝ)
    (e : SetNoise I J R N K L P) (datasize : ℤ) (c : ℕ) (h : Heap (ℕ → ℝ)) :
    ∃ v w s, classElbo kl g ids lw posts stats e none datasize = .ok (v, w) ∧
      trainIter (fun _ => v) (⟨ids.cjgGroups, (1 : ℝ), c⟩, h) = .ok s ∧
      (∀ q : Fin Qp, (s.2 ids.prior).post q = if c % 2 = 0 then (h ids.prior).prior q +
        VB.batchFactor N datasize * ∑ n, unitStats g posts e n q else (h ids.prior).post q) ∧
      (∀ k : Fin K, k.1 + 1 < K → (s.2 ids.cat).post k = if c % 2 = 0 then (h ids.cat).prior k +
        VB.batchFactor N datasize * ∑ n, classProb g posts stats e lw n k else (h ids.cat).post k) ∧
      ((s.2 ids.cat).post (K - 1) = if c % 2 = 0 then (h ids.cat).prior (K - 1) +
        VB.batchFactor N datasize * N else (h ids.cat).post (K - 1)) ∧
      (∀ q : Fin Qd, (s.2 ids.meanPrior).post q = if c % 2 = 1 then (h ids.meanPrior).prior q +
        VB.batchFactor N datasize * ∑ k, classStats g e k q else (h ids.meanPrior).post q) ∧
      ∀ p, p ≠ ids.prior → p ≠ ids.cat → p ≠ ids.meanPrior → (s.2 p).post = (h p).post := by
  obtain ⟨v, w, h1, -, -, ht, hm, hf, hp, a1, a2, a3⟩ := classElbo_ok hN hL kl g ids hd lw posts stats e none datasize
    (fun n => mixLocal lw fun k => pairValue g posts stats e n k) (fun _ => rfl)
  have hg := cjgGroups_eq ids hd
  have hdd := hd
  unfold Distinct at hdd
  simp only [List.nodup_cons, List.mem_cons, List.not_mem_nil, or_false, not_or] at hdd
  obtain ⟨⟨d1, d2, d3, d4, d5, d6⟩, ⟨k1, k2, k3, k4, k5⟩, -⟩ := hdd
  have hnd : ids.cjgGroups.flatten.Nodup := by
    rw [hg]
    simp [Ne.symm d1, k2, d3]
  rw [hg] at hnd
  obtain ⟨s, s1, -, s2, s3⟩ := iter_spec [[ids.prior, ids.cat], [ids.meanPrior]] c h v ht hm hnd
  have u1 := s2 0 (by simp) ids.prior (by simp) _ (by rw [hp, groups_eq]; simp) a2
  have u2 := s2 0 (by simp) ids.cat (by simp) _ (by rw [hp, groups_eq]; simp) a1
  have u3 := s2 1 (by simp) ids.meanPrior (by simp) _ (by rw [hp, groups_eq]; simp) a3
  simp only [List.length_cons, List.length_nil, zero_add, Nat.reduceAdd, hf] at u1 u2 u3
  have hpad : ∀ {M : ℕ} (f : Fin M → ℝ) (i : Fin M), pad (List.ofFn f) i = f i := by
    intro M f i
    unfold pad
    rw [List.getD_eq_getElem _ _ (by rw [List.length_ofFn]; exact i.2), List.getElem_ofFn]
  have hprob : ∀ n k, (mixLocal lw fun k => pairValue g posts stats e n k).resps k =
      classProb g posts stats e lw n k := fun n k => mixLocal_resps hK _ _ k
  have hrows : ∀ r ∈ (List.ofFn fun n => (mixLocal lw fun k => pairValue g posts stats e n k).resps).map
      (fun r => ((1 : ℝ), catStats (List.ofFn r))), r.2.length = K := by
    intro r hr
    obtain ⟨r', _, rfl⟩ := List.mem_map.1 hr
    show (catStats (List.ofFn r')).length = K
    rw [length_catStats _ (by intro h0; have := congrArg List.length h0; simp at this; omega), List.length_ofFn]
  have hcat : ∀ i, pad (mixCatStats (List.ofFn fun n =>
      (mixLocal lw fun k => pairValue g posts stats e n k).resps)) i =
      ∑ n, (catStats (List.ofFn fun k => classProb g posts stats e lw n k)).getD i 0 := by
    intro i
    unfold pad mixCatStats
    rw [getD_wsum K _ hrows i, List.map_map, List.map_ofFn, List.sum_ofFn]
    refine Finset.sum_congr rfl fun n _ => ?_
    show 1 * (catStats (List.ofFn _)).getD i 0 = _
    rw [one_mul]
    congr 3
    funext k
    exact hprob n k
  refine ⟨v, w, s, h1, by rw [hg]; exact s1, ?_, ?_, ?_, ?_, ?_⟩
  · intro q
    rw [u1]
    split_ifs
    · rw [Pi.add_apply, Pi.smul_apply, smul_eq_mul, hpad]
    · rfl
  · intro k hk
    rw [u2]
    split_ifs
    · rw [Pi.add_apply, Pi.smul_apply, smul_eq_mul, hcat]
      congr 2
      refine Finset.sum_congr rfl fun n _ => ?_
      unfold catStats
      rw [List.getD_append _ _ _ _ (by simp; omega), List.getD_eq_getElem _ _ (by simp; omega),
        List.getElem_dropLast, List.getElem_ofFn]
    · rfl
  · rw [u2]
    split_ifs
    · rw [Pi.add_apply, Pi.smul_apply, smul_eq_mul, hcat]
      congr 2
      have : ∀ n, (catStats (List.ofFn fun k => classProb g posts stats e lw n k)).getD (K - 1) 0 = 1 := by
        intro n
        unfold catStats
        rw [List.getD_append_right _ _ _ _ (by simp)]
        simp only [List.length_dropLast, List.length_ofFn, Nat.sub_self, List.getD_cons_zero, List.sum_ofFn]
        have := (C44_responsibilities hK lw fun k => pairValue g posts stats e n k).1.2
        simp only [hprob] at this
        exact this
      simp only [this, Finset.sum_const, Finset.card_univ, Fintype.card_fin, nsmul_eq_mul, mul_one]
    · rfl
  · intro q
    rw [u3]
    split_ifs
    · rw [Pi.add_apply, Pi.smul_apply, smul_eq_mul, hpad]
    · rfl
  · intro p p1 p2 p3
    exact s3 p (by simp [p1, p2, p3])

/-- C149, the prior of the class means, when the units are the whole data (as in `shmm/train.py`): it gets the statistics of
all the class means, once. *Partial*: for a mini-batch the statement is false, see `C149_class_prior_scaled`. -/
theorem C149_class_prior_partial (hN : 0 < N) (hL : 0 < L) (hK : 0 < K) (kl : ℕ → ℝ) (g : ClassSet I J R Qp Qd Q N K)
    (ids : SetIds) (hd : Distinct ids) (lw : Fin K → ℝ) (posts : Fin N → MLDC I) (stats : Fin N → Fin Q → ℝ)
    (e : SetNoise I J R N K L P) (datasize : ℤ) (hs : datasize ≤ 0 ∨ datasize = N) (c : ℕ) (hc : c % 2 = 1)
    (h : Heap (ℕ → ℝ)) :
    ∃ v w s, classElbo kl g ids lw posts stats e none datasize = .ok (v, w) ∧
      trainIter (fun _ => v) (⟨ids.cjgGroups, (1 : ℝ), c⟩, h) = .ok s ∧
      ∀ q : Fin Qd, (s.2 ids.meanPrior).post q = (h ids.meanPrior).prior q + ∑ k, classStats g e k q := by
  obtain ⟨v, w, s, h1, h2, -, -, -, h3, -⟩ := C149_training hN hL hK kl g ids hd lw posts stats e datasize c h
  refine ⟨v, w, s, h1, h2, fun q => ?_⟩
  have hf : VB.batchFactor N datasize = 1 := by
    unfold VB.batchFactor
    have hN' : (N : ℝ) ≠ 0 := by exact_mod_cast hN.ne'
    rcases hs with hs | hs
    · rw [if_pos hs]
    · split_ifs
      · rfl
      · rw [hs]
        push_cast
        exact div_self hN'
  rw [h3, if_pos hc, hf, one_mul]

/-- Ids used in the examples. -/
def exIds : SetIds := ⟨0, 1, 2, 3, 4, 5, 6⟩

/-- A set of two classes on one-dimensional latent spaces. -/
noncomputable def exSet : ClassSet 1 1 1 1 1 1 1 2 where
  transform := ⟨⟨fun _ => 0, fun _ => 0⟩, ⟨fun _ => 1, fun _ => 0⟩, ⟨fun _ => 0, fun _ => 0⟩, ⟨fun _ => 0, fun _ => 0⟩⟩
  pdfvec := fun r => r
  priorStats := fun x _ => x 0
  priorLlh := fun _ _ => 0
  means := fun k => ⟨fun _ => k.1 + 1, fun _ => 0⟩
  discW := ⟨fun _ => 1, fun _ => 0⟩
  meanStats := fun x _ => x 0
  meanLlh := fun _ _ => 0

/-- No noise. -/
noncomputable def exNoise : SetNoise 1 1 1 1 2 1 1 :=
  ⟨fun _ _ _ => 0, fun _ _ _ => 0, fun _ _ => 0, fun _ _ => 0, fun _ _ => 0⟩

theorem exIds_distinct : Distinct exIds := by
  unfold Distinct exIds
  decide

/-- Of two classes, the pdf-vector of the unit (latent vector `5`, weight `1`) is moved by the mean of the class. -/
example (k : Fin 2) : classVec exSet (fun _ => ⟨fun _ => 5, fun _ => 0⟩) exNoise 0 k 0 = 5 + (k.1 + 1) := by
  simp [classVec, exSet, exNoise, superVector, matrixOf, drawn, unitDraw, classDraw, Matrix.mulVec, dotProduct]

/-- The label `-1` is the last class: the unit gets the pdf-vector `7`. -/
example : ∃ v w, classElbo (fun _ => 0) exSet exIds (fun _ => 0) (fun _ => ⟨fun _ => 5, fun _ => 0⟩) (fun _ _ => 1)
    exNoise (some fun _ => -1) 0 = .ok (v, w) ∧ w 0 0 = 7 := by
  obtain ⟨v, w, h1, -, h2⟩ := C149_labelled (N := 1) (by norm_num) (by norm_num) (fun _ => 0) exSet exIds exIds_distinct
    (fun _ => 0) (fun _ => ⟨fun _ => 5, fun _ => 0⟩) (fun _ _ => 1) exNoise (fun _ => -1) (fun _ => 1)
    (by intro n; simp [VB.labelClass]) 0
  refine ⟨v, w, h1, ?_⟩
  rw [h2]
  simp [classVec, exSet, exNoise, superVector, matrixOf, drawn, unitDraw, classDraw, Matrix.mulVec, dotProduct]
  norm_num

/-- The objective, the training and the errors apply to it. -/
example := C149_objective (N := 1) (by norm_num) (by norm_num) (by norm_num) (fun _ => 0) exSet exIds exIds_distinct
  (fun _ => 0) (fun _ => ⟨fun _ => 5, fun _ => 0⟩) (fun _ _ => 1) exNoise 3

example : classElbo (fun _ => 0) exSet exIds (fun _ => 0) (fun _ => ⟨fun _ => 5, fun _ => 0⟩) (fun _ _ => 1)
    exNoise (some fun _ => 2) 0 = .error .indexError :=
  (C149_errors _ _ _ _ _ _ _ _ _).2 ⟨_, 0, rfl, Or.inr (by norm_num)⟩

example := C149_class_prior_partial (N := 1) (by norm_num) (by norm_num) (by norm_num) (fun _ => 0) exSet exIds
  exIds_distinct (fun _ => 0) (fun _ => ⟨fun _ => 5, fun _ => 0⟩) (fun _ _ => 1) exNoise (-1) (Or.inl (by norm_num)) 1 rfl
  fun _ => ⟨0, 0, 0⟩

/-- C149, the violation: on a mini-batch (one unit out of three) the statistics of the class means, all of which were
seen, are counted three times: the posterior gets `9` where the sum over the two classes is `3`. -/
theorem C149_class_prior_scaled : ∃ (h : Heap (ℕ → ℝ)) (posts : Fin 1 → MLDC 1) (stats : Fin 1 → Fin 1 → ℝ),
    ∃ v w s, classElbo (fun _ => 0) exSet exIds (fun _ => 0) posts stats exNoise none 3 = .ok (v, w) ∧
      trainIter (fun _ => v) (⟨exIds.cjgGroups, (1 : ℝ), 1⟩, h) = .ok s ∧
      ∑ k, classStats exSet exNoise k 0 = 3 ∧ (h exIds.meanPrior).prior 0 = 0 ∧
      (s.2 exIds.meanPrior).post 0 = 9 := by
  let h : Heap (ℕ → ℝ) := fun _ => ⟨0, 0, 0⟩
  let posts : Fin 1 → MLDC 1 := fun _ => ⟨fun _ => 0, fun _ => 0⟩
  let stats : Fin 1 → Fin 1 → ℝ := fun _ _ => 0
  obtain ⟨v, w, s, h1, h2, -, -, -, h3, -⟩ := C149_training (N := 1) (by norm_num) (by norm_num) (by norm_num)
    (fun _ => 0) exSet exIds exIds_distinct (fun _ => 0) posts stats exNoise 3 1 h
  have hc : ∑ k, classStats exSet exNoise k 0 = 3 := by
    simp [Fin.sum_univ_two, classStats, average, exSet, classDraw, drawn, exNoise]
    norm_num
  refine ⟨h, posts, stats, v, w, s, h1, h2, hc, rfl, ?_⟩
  have := h3 0
  rw [if_pos (by norm_num), hc] at this
  refine this.trans ?_
  show (0 : ℝ) + _ = 9
  unfold VB.batchFactor
  norm_num

end Verif.Props
