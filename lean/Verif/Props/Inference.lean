import Verif.Lemmas.Inference
import Mathlib.Algebra.BigOperators.Group.Finset.Basic
import Mathlib.Algebra.CharZero.Defs
import Mathlib.Analysis.Normed.Module.Basic
import Mathlib.Analysis.SpecificLimits.Normed
import Mathlib.Tactic.FieldSimp
import Mathlib.Tactic.NormNum
import Mathlib.Data.List.GetD

/-!
# Properties C23 - C30, C68, C71 (and C73, C74): objective, updates, optimizer, commands
-/

namespace Verif.Props

open Verif Verif.Spec

variable {F V X ι : Type}

/-! ## Concrete objectives used in the examples -/

/-- Utterance of 2 frames with statistics for the parameters 0 and 1. -/
def demoE1 : Elbo ℚ ℚ :=
  { value := -3, isTensor := true, acc := fun k => if k = 0 then some 2 else if k = 1 then some 5 else none,
    params := {0, 1}, mb := 2, datasize := 10 }

/-- Utterance of 3 frames with statistics for the parameters 1 and 2. -/
def demoE2 : Elbo ℚ ℚ :=
  { value := -1, isTensor := true, acc := fun k => if k = 1 then some 1 else if k = 2 then some 4 else none,
    params := {1, 2}, mb := 3, datasize := 10 }

/-! ## C23 -/

/-- **C23.** What a job accumulates: a `ValueError` if an objective has another data size, otherwise
the order-free sum of the values, statistics, parameters and numbers of frames. -/
theorem C23_job_is_total [Field F] [AddCommMonoid V] (ds : ℤ) (es : List (Elbo F V)) :
    accumulateJob ds es
      = if ∀ e ∈ es, e.datasize = ds then .ok (total ds es) else .error .valueError :=
  accumulateJob_eq ds es

/-- **C23.** The order of the utterances does not matter. -/
theorem C23_order_irrelevant [Field F] [AddCommMonoid V] (ds : ℤ) (es es' : List (Elbo F V))
    (h : es.Perm es') : accumulateJob ds es = accumulateJob ds es' := by
  rw [accumulateJob_eq, accumulateJob_eq, total_perm ds h]
  simp only [h.mem_iff]

/-- **C23.** Every split of the utterances (in any order) over one or more parallel jobs, some of
them possibly empty, merges to the objective of a single job. -/
theorem C23_partition_irrelevant [Field F] [AddCommMonoid V] (ds : ℤ)
    (jobs : List (List (Elbo F V))) (es : List (Elbo F V)) (hne : jobs ≠ [])
    (hp : jobs.flatten.Perm es) :
    (jobs.mapM (accumulateJob ds) >>= mergeJobs) = accumulateJob ds es := by
  rw [C23_order_irrelevant ds es _ hp.symm, accumulateJob_eq, mapM_accumulateJob]
  have hiff : (∀ j ∈ jobs, ∀ e ∈ j, e.datasize = ds) ↔ ∀ e ∈ jobs.flatten, e.datasize = ds := by
    simp only [List.mem_flatten]
    exact ⟨fun h e ⟨j, hj, he⟩ => h j hj e he, fun h j hj e he => h e ⟨j, hj, he⟩⟩
  by_cases h : ∀ j ∈ jobs, ∀ e ∈ j, e.datasize = ds
  · rw [if_pos h, if_pos (hiff.1 h)]
    change mergeJobs (jobs.map (total ds)) = _
    cases jobs with
    | nil => exact absurd rfl hne
    | cons j js =>
      rw [List.map_cons, mergeJobs_eq, if_pos]
      · rw [← total_map_total ds _ h, List.map_cons, total_datasize]
      · intro x hx
        obtain ⟨j', _, rfl⟩ := List.mem_map.1 hx
        rfl
  · rw [if_neg h, if_neg (fun h' => h (hiff.2 h'))]
    rfl

/-- Three jobs, one of them empty, in another order than the single job. -/
example : ([[demoE2], [], [demoE1]].mapM (accumulateJob 10) >>= mergeJobs)
    = accumulateJob 10 [demoE1, demoE2] :=
  C23_partition_irrelevant 10 _ _ (by simp) (by simpa using List.Perm.swap _ _ _)

/-- The sum really adds: value -4, 5 frames and 6 for the shared parameter. -/
example : ∃ e, accumulateJob 10 [demoE1, demoE2] = .ok e ∧ e.value = -4 ∧ e.mb = 5
    ∧ e.acc 0 = some 2 ∧ e.acc 1 = some 6 ∧ e.acc 2 = some 4 ∧ e.acc 3 = none := by
  refine ⟨_, (C23_job_is_total 10 _).trans (if_pos (by simp [demoE1, demoE2])), ?_⟩
  simp [total, optSum, demoE1, demoE2]
  norm_num

/-- Without any job file the update command fails: the merge of no job is an `AttributeError`. -/
theorem C23_no_job_fails [Add F] [Add V] :
    mergeJobs ([] : List (Elbo F V)) = .error .attributeError := rfl

/-! ## C24 -/

/-- **C24.** `+` succeeds exactly on objectives of the same data size, otherwise it is a
`ValueError`. -/
theorem C24_add_ok_iff [Add F] [Add V] (e : Elbo F V) (x : PyOperand F V) :
    ((∃ r, e.add x = .ok r) ↔ ∃ e2, x = .elbo e2 ∧ e2.datasize = e.datasize)
    ∧ ((¬ ∃ r, e.add x = .ok r) → e.add x = .error .valueError) := by
  cases x with
  | other => simp [Elbo.add]
  | elbo e2 =>
    rw [add_eq]
    by_cases h : e.datasize = e2.datasize
    · simp [h]
    · simp [h, Ne.symm h]

/-- **C24.** Adding never changes the data size. -/
theorem C24_add_datasize [Add F] [Add V] (e r : Elbo F V) (x : PyOperand F V)
    (h : e.add x = .ok r) : r.datasize = e.datasize ∧ ∀ e2, x = .elbo e2 → r.datasize = e2.datasize := by
  cases x with
  | other => simp [Elbo.add] at h
  | elbo e2 =>
    rw [add_eq] at h
    split at h
    · rename_i hd
      injection h with h
      subst h
      refine ⟨rfl, ?_⟩
      rintro e3 he
      injection he with he
      subst he
      exact hd
    · cases h

example : ∃ r, demoE1.add (.elbo demoE2) = .ok r := ((C24_add_ok_iff _ _).1).2 ⟨demoE2, rfl, rfl⟩
example : demoE1.add (.elbo { demoE2 with datasize := 11 }) = .error .valueError := by
  simp [Elbo.add, demoE1]

/-! ## C25 -/

section backward
variable [Field F] [AddCommGroup V] [Module F V]

/-- The objective of one utterance of a conjugate model with per-frame statistics `T`. -/
def conjModel (params : Finset ℕ) (T : ℕ → X → V) (llh : X → F) (kl : F) : BModel F V X :=
  { expLlh := fun xs => (xs.map llh).sum, kl := kl, accumulate := conjAcc params T, params := params }

/-- Objectives of a list of utterances, evaluated on the same model and data size. -/
def uttElbos (m : BModel F V X) (ds : ℤ) (utts : List (List X)) : Except Err (List (Elbo F V)) :=
  utts.mapM (fun u => evidenceLowerBound (some m) (some u) ds)

omit [AddCommGroup V] [Module F V] in
theorem elbo_ok (m : BModel F V X) (ds : ℤ) (hds : 0 < ds) (u : List X) (hu : u ≠ []) :
    evidenceLowerBound (some m) (some u) ds
      = .ok { value := ((ds : F) / (u.length : F)) * m.expLlh u - m.kl, isTensor := true,
              acc := m.accumulate u, params := m.params, mb := u.length, datasize := ds } := by
  have h1 : ¬ ds ≤ 0 := by omega
  have h2 : u.length ≠ 0 := by simpa using hu
  simp [evidenceLowerBound, h1, hu]

omit [Module F V] in
/-- The accumulated objective of a conjugate model over some utterances. -/
theorem uttElbos_total (params : Finset ℕ) (T : ℕ → X → V) (llh : X → F) (kl : F) (ds : ℤ)
    (hds : 0 < ds) (utts : List (List X)) (hne : ∀ u ∈ utts, u ≠ []) :
    ∃ es, uttElbos (conjModel params T llh kl) ds utts = .ok es ∧ (∀ e ∈ es, e.datasize = ds)
      ∧ (total ds es).mb = utts.flatten.length
      ∧ (total ds es).isTensor = !utts.isEmpty
      ∧ (total ds es).params = (if utts = [] then ∅ else params)
      ∧ (total ds es).acc = (if utts = [] then fun _ => none else conjAcc params T utts.flatten) := by
  induction utts with
  | nil =>
    refine ⟨[], rfl, by simp, rfl, rfl, rfl, ?_⟩
    funext k; simp [total, optSum_nil]
  | cons u us ih =>
    obtain ⟨es, h1, h2, h3, h4, h5, h6⟩ := ih (fun u' hu' => hne u' (List.mem_cons_of_mem _ hu'))
    have hu := elbo_ok (conjModel params T llh kl) ds hds u (hne u List.mem_cons_self)
    refine ⟨{ value := ((ds : F) / (u.length : F)) * (conjModel (V := V) params T llh kl).expLlh u
                - (conjModel (V := V) params T llh kl).kl
              isTensor := true, acc := conjAcc params T u, params := params, mb := u.length,
              datasize := ds } :: es, ?_, ?_, ?_, ?_, ?_, ?_⟩
    · unfold uttElbos at h1 ⊢
      rw [List.mapM_cons, hu, h1]
      rfl
    · intro e he
      rcases List.mem_cons.1 he with rfl | he
      · rfl
      · exact h2 e he
    · rw [total_cons ds _ _ (by rfl)]; simp [Elbo.plus, h3]
    · rw [total_cons ds _ _ (by rfl)]; simp [Elbo.plus]
    · rw [total_cons ds _ _ (by rfl)]
      simp only [Elbo.plus, h5]
      split <;> simp
    · rw [total_cons ds _ _ (by rfl)]
      simp only [Elbo.plus, h6]
      by_cases hus : us = []
      · subst hus
        simp [addAcc_none_right]
      · simp only [hus, if_false, List.cons_ne_nil]
        funext k
        by_cases hk : k ∈ params
        · simp [addAcc, conjAcc, hk]
        · simp [addAcc, conjAcc, hk]

/-- **C25.** `backward` on the accumulated objective of any utterances of a conjugate model hands to
each parameter the sum over all the accumulated frames of its statistics, times
data size / number of accumulated frames, and does not touch the other parameters. -/
theorem C25_backward_scales (params : Finset ℕ) (T : ℕ → X → V) (llh : X → F) (kl : F) (ds : ℤ)
    (hds : 0 < ds) (utts : List (List X)) (hne : ∀ u ∈ utts, u ≠ []) (hutts : utts ≠ [])
    (h : Heap V) (b : Bool) :
    ∃ es e h', uttElbos (conjModel params T llh kl) ds utts = .ok es
      ∧ accumulateJob ds es = .ok e ∧ e.backward (F := F) b h = .ok h'
      ∧ ∀ i, h' i = if i ∈ params then
          { h i with stats := ((ds : F) / (utts.flatten.length : F)) • (utts.flatten.map (T i)).sum }
        else h i := by
  obtain ⟨es, h1, h2, h3, h4, h5, h6⟩ := uttElbos_total params T llh kl ds hds utts hne
  refine ⟨es, total ds es, fun i => if i ∈ params then
          { h i with stats := ((ds : F) / (utts.flatten.length : F)) • (utts.flatten.map (T i)).sum }
        else h i, h1, (accumulateJob_eq _ _).trans (if_pos h2), ?_, fun i => rfl⟩
  · have hlen : utts.flatten.length ≠ 0 := by
      cases utts with
      | nil => exact absurd rfl hutts
      | cons u us =>
        have := hne u List.mem_cons_self
        have : 0 < u.length := List.length_pos_of_ne_nil this
        simp only [List.flatten_cons, List.length_append]; omega
    have ht : (total ds es).isTensor = true := by
      rw [h4]; cases utts <;> simp_all
    unfold Elbo.backward
    rw [ht, h3, h5, h6]
    simp only [hutts, if_false, Bool.not_true, Bool.and_false, Bool.false_eq_true, hlen,
      total_datasize]
    congr 1
    funext i
    by_cases hi : i ∈ params
    · simp [hi, conjAcc, Param.storeStats]
    · simp [hi]

/-- **C25.** With all the data accumulated the statistics are exactly the full data statistics. -/
theorem C25_full_data [CharZero F] (params : Finset ℕ) (T : ℕ → X → V) (llh : X → F) (kl : F)
    (utts : List (List X)) (hne : ∀ u ∈ utts, u ≠ []) (hutts : utts ≠ []) (h : Heap V) (b : Bool) :
    ∃ es e h', uttElbos (conjModel params T llh kl) utts.flatten.length utts = .ok es
      ∧ accumulateJob utts.flatten.length es = .ok e ∧ e.backward (F := F) b h = .ok h'
      ∧ ∀ i ∈ params, (h' i).stats = (utts.flatten.map (T i)).sum := by
  have hlen : 0 < utts.flatten.length := by
    cases utts with
    | nil => exact absurd rfl hutts
    | cons u us =>
      have : 0 < u.length := List.length_pos_of_ne_nil (hne u List.mem_cons_self)
      simp only [List.flatten_cons, List.length_append]; omega
  obtain ⟨es, e, h', h1, h2, h3, h4⟩ := C25_backward_scales params T llh kl utts.flatten.length
    (by exact_mod_cast hlen) utts hne hutts h b
  refine ⟨es, e, h', h1, h2, h3, ?_⟩
  intro i hi
  rw [h4 i, if_pos hi]
  have : ((utts.flatten.length : ℕ) : F) ≠ 0 := by exact_mod_cast hlen.ne'
  change (((utts.flatten.length : ℤ) : F) / _) • _ = _
  rw [Int.cast_natCast, div_self this, one_smul]

/-- Statistics received by parameter `i` when the batch `u` alone is accumulated. -/
noncomputable def batchStats (params : Finset ℕ) (T : ℕ → X → V) (llh : X → F) (kl : F) (ds : ℤ) (h : Heap V)
    (i : ℕ) (u : List X) : V :=
  match evidenceLowerBound (some (conjModel (F := F) params T llh kl)) (some u) ds with
  | .error _ => 0
  | .ok e => match e.backward (F := F) true h with
    | .error _ => 0
    | .ok h' => (h' i).stats

/-- **C25.** The average of the statistics received from the batches of any partition, weighted by
the batch sizes, is the full data statistics. -/
theorem C25_minibatch_unbiased [CharZero F] (params : Finset ℕ) (T : ℕ → X → V) (llh : X → F)
    (kl : F) (batches : List (List X)) (hne : ∀ u ∈ batches, u ≠ []) (hb : batches ≠ [])
    (h : Heap V) (i : ℕ) (hi : i ∈ params) :
    (batches.map (fun u => ((u.length : F) / (batches.flatten.length : F)) •
        batchStats params T llh kl batches.flatten.length h i u)).sum
      = (batches.flatten.map (T i)).sum := by
  have hlen : 0 < batches.flatten.length := by
    cases batches with
    | nil => exact absurd rfl hb
    | cons u us =>
      have : 0 < u.length := List.length_pos_of_ne_nil (hne u List.mem_cons_self)
      simp only [List.flatten_cons, List.length_append]; omega
  generalize hN : batches.flatten.length = N at *
  have hN0 : ((N : ℕ) : F) ≠ 0 := by exact_mod_cast hlen.ne'
  have hone : ∀ u ∈ batches, ((u.length : F) / (N : F)) • batchStats params T llh kl N h i u
      = (u.map (T i)).sum := by
    intro u hu
    have hu0 := hne u hu
    have hl : u.length ≠ 0 := by simpa using hu0
    have hl' : ((u.length : ℕ) : F) ≠ 0 := by exact_mod_cast hl
    unfold batchStats
    rw [elbo_ok _ _ (by exact_mod_cast hlen) _ hu0]
    simp only [Elbo.backward, conjModel, conjAcc, Param.storeStats, hi, if_true, hl, if_false,
      Bool.not_true, Bool.and_false, Bool.false_eq_true]
    rw [smul_smul]
    have : (u.length : F) / (N : F) * (((N : ℤ) : F) / (u.length : F)) = 1 := by
      rw [Int.cast_natCast]; field_simp
    rw [this, one_smul]
  rw [List.map_congr_left hone, List.map_flatten, List.sum_flatten, List.map_map]
  rfl

/-- **C25.** `backward` twice is `backward` once; parameters without statistics or unknown to the
objective are untouched; priors and posteriors are never modified. -/
theorem C25_backward_idempotent (e : Elbo F V) (b : Bool) (h h' : Heap V)
    (hb : e.backward (F := F) b h = .ok h') :
    e.backward (F := F) b h' = .ok h'
    ∧ (∀ i, (i ∉ e.params ∨ e.acc i = none) → h' i = h i)
    ∧ (∀ i, (h' i).prior = (h i).prior ∧ (h' i).post = (h i).post) := by
  unfold Elbo.backward at hb ⊢
  split at hb
  · cases hb
  · rename_i h1
    split at hb
    · cases hb
    · rename_i h2
      injection hb with hb
      subst hb
      refine ⟨?_, ?_, ?_⟩
      · rw [if_neg h1, if_neg h2]
        congr 1
        funext i
        by_cases hi : i ∈ e.params
        · cases ha : e.acc i <;> simp [hi, ha, Param.storeStats]
        · simp [hi]
      · rintro i (hi | hi) <;> simp [hi]
      · intro i
        by_cases hi : i ∈ e.params
        · cases ha : e.acc i <;> simp [hi, ha, Param.storeStats]
        · simp [hi]

/-- **C25.** With no accumulated frame `backward` always fails. -/
theorem C25_backward_empty_fails (e : Elbo F V) (he : e.mb = 0) (b : Bool) (h : Heap V) :
    e.backward (F := F) b h = .error .attributeError ∨ e.backward (F := F) b h = .error .zeroDivision := by
  unfold Elbo.backward
  split
  · exact Or.inl rfl
  · right; rfl

end backward

/-- Two utterances (2 and 1 frames), data size 6: the statistics are doubled. -/
example : ∃ es e h', uttElbos (conjModel {7} (fun _ x => x) (fun x => x) 0) 6 [[1, 2], [3]] = .ok es
      ∧ accumulateJob 6 es = .ok e
      ∧ e.backward (F := ℚ) true (fun _ => (⟨0, 0, 0⟩ : Param ℚ)) = .ok h'
      ∧ (h' 7).stats = 12 ∧ (h' 8).stats = 0 := by
  obtain ⟨es, e, h', h1, h2, h3, h4⟩ := C25_backward_scales ({7} : Finset ℕ) (fun _ (x : ℚ) => x)
    (fun x => x) 0 6 (by norm_num) [[1, 2], [3]] (by simp) (by simp)
    (fun _ => (⟨0, 0, 0⟩ : Param ℚ)) true
  refine ⟨es, e, h', h1, h2, h3, ?_, ?_⟩
  · rw [h4]; simp; norm_num
  · rw [h4]; simp

/-! ## C26, C27 -/

section update
variable [Field F] [AddCommGroup V] [Module F V]

/-- **C26.** The new natural parameters are the combination of the old posterior and of
prior + statistics; prior and statistics are unchanged. -/
theorem C26_update_convex (r : F) (p : Param V) :
    (p.update r).post = (1 - r) • p.post + r • (p.prior + p.stats)
    ∧ (p.update r).prior = p.prior ∧ (p.update r).stats = p.stats := by
  refine ⟨?_, rfl, rfl⟩
  simp only [Param.update]
  module

/-- **C26.** With learning rate one, the result depends only on the prior and the statistics: it is
the exact Bayesian update, whatever the posterior before; with learning rate zero nothing changes. -/
theorem C26_full_step (p : Param V) :
    (p.update (1 : F)).post = p.prior + p.stats
    ∧ (∀ q : Param V, q.prior = p.prior → q.stats = p.stats → q.update (1 : F) = p.update (1 : F))
    ∧ p.update (0 : F) = p := by
  have h1 : ∀ p : Param V, (p.update (1 : F)).post = p.prior + p.stats := fun p => by
    simp [Param.update]
  refine ⟨h1 p, ?_, by simp [Param.update]⟩
  intro q hq1 hq2
  simp [Param.update, hq1, hq2]

/-- **C27.** After `n` updates with constant statistics the deviation from prior + statistics is
exactly `(1 - r)^n` times the initial one. -/
theorem C27_geometric (r : F) (n : ℕ) (p : Param V) :
    ((Param.update r)^[n] p).post - (p.prior + p.stats)
      = (1 - r) ^ n • (p.post - (p.prior + p.stats)) := by
  have hk : ∀ n, ((Param.update r)^[n] p).prior = p.prior ∧ ((Param.update r)^[n] p).stats = p.stats := by
    intro n
    induction n with
    | zero => exact ⟨rfl, rfl⟩
    | succ n ih => rw [Function.iterate_succ_apply']; exact ih
  induction n with
  | zero => simp
  | succ n ih =>
    rw [Function.iterate_succ_apply', (C26_update_convex r _).1, (hk n).1, (hk n).2, pow_succ', mul_smul,
      ← ih]
    module

end update

/-- **C27.** For a learning rate strictly between 0 and 2, training with constant statistics
converges to the exact posterior. -/
theorem C27_converges [NormedAddCommGroup V] [NormedSpace ℝ V] (r : ℝ) (h0 : 0 < r) (h2 : r < 2)
    (p : Param V) :
    Filter.Tendsto (fun n => ((Param.update r)^[n] p).post) Filter.atTop
      (nhds (p.prior + p.stats)) := by
  have habs : |1 - r| < 1 := by rw [abs_lt]; constructor <;> linarith
  have hp := (tendsto_pow_atTop_nhds_zero_of_abs_lt_one habs).smul_const
    (p.post - (p.prior + p.stats))
  rw [zero_smul] at hp
  have := hp.add_const (p.prior + p.stats)
  rw [zero_add] at this
  refine this.congr (fun n => ?_)
  rw [← C27_geometric, sub_add_cancel]

example : ((Param.update (1/2 : ℚ))^[3] (⟨1, 8, 2⟩ : Param ℚ)).post = 3 + 5 / 8 := by
  norm_num [Param.update]
/-- With learning rate 2 it does not converge: the posterior oscillates. -/
example : ((Param.update (2 : ℚ))^[2] (⟨1, 8, 2⟩ : Param ℚ)).post = 8 := by
  norm_num [Param.update]

/-! ## C28 -/

section optimizer
variable [Field F] [AddCommGroup V] [Module F V]

/-- `n` calls of `step`. -/
def stepN (n : ℕ) (s : CjgOptim F × Heap V) : CjgOptim F × Heap V :=
  (fun s : CjgOptim F × Heap V => s.1.step s.2)^[n] s

/-- **C28.** One step updates each parameter of exactly one group, the one the counter designates,
and nothing else; the counter is incremented. -/
theorem C28_step_updates_one_group (o : CjgOptim F) (h : Heap V) (hn : o.groups.flatten.Nodup) :
    (o.step h).1 = { o with count := o.count + 1 }
    ∧ (∀ g (hg : g < o.groups.length), ∀ p ∈ o.groups[g],
        (o.step h).2 p = if o.count % o.groups.length = g then (h p).update o.lrate else h p)
    ∧ (∀ p, p ∉ o.groups.flatten → (o.step h).2 p = h p) := by
  have hdisj := (List.nodup_flatten.1 hn).2
  have hnd := (List.nodup_flatten.1 hn).1
  refine ⟨rfl, ?_, ?_⟩
  · intro g hg p hp
    have hlen : 0 < o.groups.length := by omega
    have hc : o.count % o.groups.length < o.groups.length := Nat.mod_lt _ hlen
    simp only [CjgOptim.step, hlen, if_true]
    rw [List.getD_eq_getElem _ _ hc]
    split
    · rename_i he
      subst he
      exact foldl_set_mem (Param.update o.lrate) _ _ _ hp (hnd _ (List.getElem_mem hc))
    · rename_i he
      refine foldl_set_notMem (Param.update o.lrate) _ _ _ ?_
      intro hp'
      rcases lt_or_gt_of_ne he with hlt | hlt
      · exact (List.pairwise_iff_getElem.1 hdisj _ _ hc hg hlt) hp' hp
      · exact (List.pairwise_iff_getElem.1 hdisj _ _ hg hc hlt) hp hp'
  · intro p hp
    simp only [CjgOptim.step]
    split
    · rename_i hlen
      have hc : o.count % o.groups.length < o.groups.length := Nat.mod_lt _ hlen
      rw [List.getD_eq_getElem _ _ hc]
      refine foldl_set_notMem (Param.update o.lrate) _ _ _ ?_
      intro hp'
      exact hp (List.mem_flatten.2 ⟨_, List.getElem_mem hc, hp'⟩)
    · rfl

theorem stepN_succ (n : ℕ) (s : CjgOptim F × Heap V) :
    stepN (n + 1) s = (stepN n s).1.step (stepN n s).2 := Function.iterate_succ_apply' _ _ _

theorem stepN_optim (n : ℕ) (o : CjgOptim F) (h : Heap V) :
    (stepN n (o, h)).1 = { o with count := o.count + n } := by
  induction n with
  | zero => rfl
  | succ n ih => rw [stepN_succ]; simp [CjgOptim.step, ih, Nat.add_assoc]

/-- **C28.** After `n` steps of a new optimizer, each parameter of group `g` has been updated
`⌊(n + G - 1 - g) / G⌋` times; the parameters of no group are unchanged. -/
theorem C28_round_robin (groups : List (List ℕ)) (lrate : F) (h : Heap V) (n : ℕ)
    (hn : groups.flatten.Nodup) :
    (∀ g (hg : g < groups.length), ∀ p ∈ groups[g],
      (stepN n (CjgOptim.new groups lrate, h)).2 p
        = (Param.update lrate)^[(n + groups.length - 1 - g) / groups.length] (h p))
    ∧ (∀ p, p ∉ groups.flatten → (stepN n (CjgOptim.new groups lrate, h)).2 p = h p) := by
  induction n with
  | zero =>
    refine ⟨?_, fun p _ => rfl⟩
    intro g hg p _
    have : (0 + groups.length - 1 - g) / groups.length = 0 := Nat.div_eq_of_lt (by omega)
    rw [this]; rfl
  | succ n ih =>
    have ho := stepN_optim n (CjgOptim.new groups lrate) h
    have hs := C28_step_updates_one_group (stepN n (CjgOptim.new groups lrate, h)).1
      (stepN n (CjgOptim.new groups lrate, h)).2 (by rw [ho]; exact hn)
    rw [stepN_succ]
    refine ⟨?_, ?_⟩
    · intro g hg p hp
      have hs2 := hs.2.1 g (by rw [ho]; exact hg) p (by simp only [ho]; exact hp)
      rw [hs2, ih.1 g hg p hp, ho]
      simp only [CjgOptim.new, Nat.zero_add]
      have hlen : 0 < groups.length := by omega
      set G := groups.length
      have e1 := Nat.div_add_mod n G
      have e2 := Nat.mod_lt n hlen
      set q := n / G
      set m := n % G
      have d1 : ∀ a b, b < G → (G * a + b) / G = a := by
        intro a b hb; rw [Nat.mul_add_div hlen, Nat.div_eq_of_lt hb]; rfl
      by_cases hm : m = g
      · rw [if_pos hm]
        have a1 : n + G - 1 - g = G * q + (G - 1) := by omega
        have a2 : n + 1 + G - 1 - g = G * (q + 1) + 0 := by rw [Nat.mul_add]; omega
        rw [a1, a2, d1 _ _ (by omega), d1 _ _ hlen, Function.iterate_succ_apply']
      · rw [if_neg hm]
        congr 1
        rcases lt_or_gt_of_ne hm with hlt | hlt
        · have a1 : n + G - 1 - g = G * q + (m + G - 1 - g) := by omega
          have a2 : n + 1 + G - 1 - g = G * q + (m + G - g) := by omega
          rw [a1, a2, d1 _ _ (by omega), d1 _ _ (by omega)]
        · have a1 : n + G - 1 - g = G * (q + 1) + (m - 1 - g) := by rw [Nat.mul_add]; omega
          have a2 : n + 1 + G - 1 - g = G * (q + 1) + (m - g) := by rw [Nat.mul_add]; omega
          rw [a1, a2, d1 _ _ (by omega), d1 _ _ (by omega)]
    · intro p hp
      rw [hs.2.2 p (by rw [ho]; exact hp), ih.2 p hp]

/-- Three groups, 7 steps: group 0 is updated 3 times, the others twice. -/
example (h : Heap ℚ) : (stepN 7 (CjgOptim.new [[4, 2], [9], [1]] (1/2 : ℚ), h)).2 2
      = (Param.update (1/2 : ℚ))^[3] (h 2)
    ∧ (stepN 7 (CjgOptim.new [[4, 2], [9], [1]] (1/2 : ℚ), h)).2 9
      = (Param.update (1/2 : ℚ))^[2] (h 9)
    ∧ (stepN 7 (CjgOptim.new [[4, 2], [9], [1]] (1/2 : ℚ), h)).2 5 = h 5 := by
  have hr := C28_round_robin [[4, 2], [9], [1]] (1/2 : ℚ) h 7 (by decide)
  exact ⟨hr.1 0 (by decide) 2 (by decide), hr.1 1 (by decide) 9 (by decide), hr.2 5 (by decide)⟩

/-! ## C29 -/

omit [Field F] [AddCommGroup V] [Module F V] in
theorem stopResume_eq (r : F) (s : CjgOptim F × Heap V) : stopResume r s = s := rfl

theorem trainRun_add (obj : ℕ → Heap V → Elbo F V) (i n m : ℕ) (s : CjgOptim F × Heap V) :
    trainRun obj i (n + m) s = (trainRun obj i n s >>= trainRun obj (i + n) m) := by
  induction n generalizing i s with
  | zero => simp [trainRun, bind, Except.bind]
  | succ n ih =>
    rw [show n + 1 + m = (n + m) + 1 by omega]
    simp only [trainRun]
    cases trainIter (obj i) s with
    | error e => rfl
    | ok s' => simp only [ih]; rw [show i + 1 + n = i + (n + 1) by omega]

/-- **C29.** Training interrupted any number of times, at any points, each new process being started
with any learning rate argument, ends in the same parameters and optimizer as the uninterrupted
training (and fails at the same place if it fails), whatever objectives are computed from the
current parameters. -/
theorem C29_resume_transparent (obj : ℕ → Heap V → Elbo F V) (i : ℕ) (segs : List (ℕ × F))
    (s : CjgOptim F × Heap V) :
    trainSegments obj i segs s = trainRun obj i (segs.map Prod.fst).sum s := by
  induction segs generalizing i s with
  | nil => rfl
  | cons seg segs ih =>
    obtain ⟨n, r⟩ := seg
    rw [List.map_cons, List.sum_cons, trainRun_add]
    simp only [trainSegments]
    cases trainRun obj i n s with
    | error e => rfl
    | ok s' => exact ih (i + n) s'

/-- **C29.** The update command with its state file is one iteration of the in-process training, for
every value of its learning rate argument: a chain of update commands resumes the training. -/
theorem C29_update_command (groups : List (List ℕ)) (params : Finset ℕ) (r0 lrate : F) (count : ℕ)
    (job : Elbo F V) (h : Heap V) :
    updateCmd groups params r0 (some (lrate, count)) [job] h
      = (match trainIter (fun _ => job.sync params) (⟨groups, lrate, count⟩, h) with
        | .error e => .error e
        | .ok s => .ok (s.2, s.1.stateDict)) := by
  simp only [updateCmd, mergeJobs, List.foldlM_nil, pure, Except.pure, trainIter, CjgOptim.new,
    CjgOptim.loadStateDict]
  cases (job.sync params).backward (F := F) true
    (CjgOptim.initStep (⟨groups, lrate, count⟩ : CjgOptim F) h) with
  | error e => rfl
  | ok h' => rfl

/-- **C73.** When the optimizer state file exists the learning rate given to the update command has
no effect at all: the one of the first update is used for ever. -/
theorem C73_learning_rate_ignored_on_resume (groups : List (List ℕ)) (params : Finset ℕ)
    (r r' : F) (st : F × ℕ) (jobs : List (Elbo F V)) (h : Heap V) :
    updateCmd groups params r (some st) jobs h = updateCmd groups params r' (some st) jobs h := rfl

/-! ## C30 -/

/-- **C30.** After an iteration with learning rate one, a parameter of the updated group for which the
objective holds no statistics has its prior as posterior. -/
theorem C30_no_stats_returns_to_prior (o : CjgOptim F) (h : Heap V) (e : Elbo F V)
    (s : CjgOptim F × Heap V) (hn : o.groups.flatten.Nodup) (hl : o.lrate = 1)
    (hs : trainIter (fun _ => e) (o, h) = .ok s) (hG : 0 < o.groups.length) (p : ℕ)
    (hp : p ∈ o.groups[o.count % o.groups.length]'(Nat.mod_lt _ hG))
    (he : p ∉ e.params ∨ e.acc p = none) : (s.2 p).post = (h p).prior := by
  simp only [trainIter] at hs
  split at hs
  · cases hs
  · rename_i h' hb
    injection hs with hs
    subst hs
    have hstep := (C28_step_updates_one_group o h' hn).2.1 _ (Nat.mod_lt _ hG) p hp
    rw [hstep, if_pos rfl, hl, (C26_full_step (h' p)).1,
      (C25_backward_idempotent e true _ h' hb).2.1 p he, initStep_apply,
      if_pos (List.mem_flatten.2 ⟨_, List.getElem_mem _, hp⟩)]
    simp [Param.zeroStats]

/-- **C30.** Statistics never leak from earlier iterations: two processes which only differ in the
statistics stored before the iteration end in the same state for all parameters of the optimizer. -/
theorem C30_no_leak (o : CjgOptim F) (h1 h2 : Heap V) (e : Elbo F V) (s1 s2 : CjgOptim F × Heap V)
    (hn : o.groups.flatten.Nodup)
    (hsame : ∀ p ∈ o.groups.flatten, (h1 p).prior = (h2 p).prior ∧ (h1 p).post = (h2 p).post)
    (hs1 : trainIter (fun _ => e) (o, h1) = .ok s1)
    (hs2 : trainIter (fun _ => e) (o, h2) = .ok s2) :
    s1.1 = s2.1 ∧ ∀ p ∈ o.groups.flatten, s1.2 p = s2.2 p := by
  simp only [trainIter] at hs1 hs2
  split at hs1
  · cases hs1
  · rename_i h1' hb1
    split at hs2
    · cases hs2
    · rename_i h2' hb2
      injection hs1 with hs1
      injection hs2 with hs2
      subst hs1; subst hs2
      refine ⟨rfl, ?_⟩
      have hinit : ∀ p ∈ o.groups.flatten, o.initStep h1 p = o.initStep h2 p := by
        intro p hp
        rw [initStep_apply, initStep_apply, if_pos hp, if_pos hp]
        simp [Param.zeroStats, hsame p hp]
      have hback : ∀ p ∈ o.groups.flatten, h1' p = h2' p := by
        intro p hp
        unfold Elbo.backward at hb1 hb2
        split at hb1
        · cases hb1
        · split at hb1
          · cases hb1
          · rw [if_neg (by assumption), if_neg (by assumption)] at hb2
            injection hb1 with hb1
            injection hb2 with hb2
            subst hb1; subst hb2
            simp only [hinit p hp]
      intro p hp
      obtain ⟨g, hg, hpg⟩ := List.mem_flatten.1 hp
      obtain ⟨i, hi, rfl⟩ := List.mem_iff_getElem.1 hg
      rw [(C28_step_updates_one_group o h1' hn).2.1 i hi p hpg,
        (C28_step_updates_one_group o h2' hn).2.1 i hi p hpg, hback p hp]

example : ∃ s, trainIter (fun _ => demoE1) (⟨[[0, 3]], (1 : ℚ), 0⟩, fun _ => (⟨7, 5, 3⟩ : Param ℚ)) = .ok s
    ∧ (s.2 3).post = 7 ∧ (s.2 0).post = 17 := by
  refine ⟨_, rfl, ?_, ?_⟩ <;>
  norm_num [CjgOptim.step, CjgOptim.initStep, Heap.set, Param.update, Param.zeroStats,
    Param.storeStats, demoE1]

/-! ## C71 -/

/-- **C71.** Accumulating in any number of jobs over any split of the utterances, then the update
command, has the same outcome as a single job over all the utterances. -/
theorem C71_distributed_equals_single (ds : ℤ) (groups : List (List ℕ)) (params : Finset ℕ)
    (lrate : F) (st : Option (F × ℕ)) (jobs : List (List (Elbo F V))) (es : List (Elbo F V))
    (hne : jobs ≠ []) (hp : jobs.flatten.Perm es) (h : Heap V) :
    (jobs.mapM (accumulateJob ds) >>= fun rs => updateCmd groups params lrate st rs h)
      = (accumulateJob ds es >>= fun r => updateCmd groups params lrate st [r] h) := by
  have key : ∀ rs : List (Elbo F V), updateCmd groups params lrate st rs h
      = (mergeJobs rs >>= fun r => updateCmd groups params lrate st [r] h) := by
    intro rs
    unfold updateCmd
    cases hm : mergeJobs rs with
    | error e => rfl
    | ok e => rfl
  have h1 := C23_partition_irrelevant ds jobs es hne hp
  rw [← h1]
  cases jobs.mapM (accumulateJob ds) with
  | error e => rfl
  | ok rs => exact key rs

/-- **C71.** For a conjugate model, the first update with learning rate one, after accumulating the
whole data set in any number of jobs, gives every parameter of the updated group its exact conjugate
posterior: prior + statistics of all the frames. -/
theorem C71_exact_posterior [CharZero F] (groups : List (List ℕ)) (params : Finset ℕ)
    (T : ℕ → X → V) (llh : X → F) (kl : F) (utts : List (List X)) (hne : ∀ u ∈ utts, u ≠ [])
    (hutts : utts ≠ []) (hn : groups.flatten.Nodup) (hG : 0 < groups.length) (h : Heap V) :
    ∃ es, uttElbos (conjModel params T llh kl) utts.flatten.length utts = .ok es ∧
      ∀ jobs : List (List (Elbo F V)), jobs ≠ [] → jobs.flatten.Perm es →
        ∃ h' st, (jobs.mapM (accumulateJob utts.flatten.length)
            >>= fun rs => updateCmd groups params 1 none rs h) = .ok (h', st)
          ∧ ∀ p ∈ groups[0], p ∈ params →
              (h' p).post = (h p).prior + (utts.flatten.map (T p)).sum := by
  set o : CjgOptim F := CjgOptim.new groups 1 with ho
  obtain ⟨es, e, hb, h1, h2, h3, h4⟩ :=
    C25_full_data params T llh kl utts hne hutts (o.initStep h) true
  refine ⟨es, h1, ?_⟩
  intro jobs hj hp
  rw [C71_distributed_equals_single _ _ _ _ _ jobs es hj hp, h2]
  have hpar : e.params = params := by
    have hlen : 0 < utts.flatten.length := by
      cases utts with
      | nil => exact absurd rfl hutts
      | cons u us =>
        have : 0 < u.length := List.length_pos_of_ne_nil (hne u List.mem_cons_self)
        simp only [List.flatten_cons, List.length_append]; omega
    obtain ⟨es', g1, g2, _, _, g5, _⟩ := uttElbos_total params T llh kl utts.flatten.length
      (by exact_mod_cast hlen) utts hne
    rw [h1] at g1
    injection g1 with g1
    subst g1
    rw [accumulateJob_eq, if_pos g2] at h2
    injection h2 with h2
    rw [← h2, g5, if_neg hutts]
  have hsync : e.sync params = e := by rw [← hpar]; rfl
  refine ⟨(o.step hb).2, (o.step hb).1.stateDict, ?_, ?_⟩
  · change updateCmd groups params 1 none [e] h = _
    simp only [updateCmd, mergeJobs, List.foldlM_nil, pure, Except.pure, hsync, ← ho, h3]
  · intro p hp0 hpp
    have hs := (C28_step_updates_one_group o hb hn).2.1 0 hG p hp0
    have hz : o.count % o.groups.length = 0 := Nat.zero_mod _
    rw [if_pos hz] at hs
    have hl : o.lrate = 1 := rfl
    have hpri : (hb p).prior = (h p).prior := by
      rw [((C25_backward_idempotent e true _ hb h3).2.2 p).1, initStep_apply]
      split <;> rfl
    rw [hs, hl, (C26_full_step (hb p)).1, h4 p hpp, hpri]

/-- **C71.** An objective read from its file is reconnected to the parameters of the model: whatever parameters it knew when it was saved,
every parameter of the model it has statistics for is updated with them, scaled, and no other parameter receives any. -/
theorem C71_reconnected (groups : List (List ℕ)) (params : Finset ℕ) (lrate : F) (e : Elbo F V) (h : Heap V)
    (hn : groups.flatten.Nodup) (hG : 0 < groups.length) (ht : e.isTensor = true) (hmb : e.mb ≠ 0) :
    ∃ h' st, updateCmd groups params lrate none [e] h = .ok (h', st) ∧
      (∀ p ∈ groups[0], ∀ s, p ∈ params → e.acc p = some s →
        (h' p).post = (h p).post + lrate • ((h p).prior + ((e.datasize : F) / (e.mb : F)) • s - (h p).post)) ∧
      ∀ p ∈ groups[0], (p ∉ params ∨ e.acc p = none) → (h' p).post = (h p).post + lrate • ((h p).prior - (h p).post) := by
  set o : CjgOptim F := CjgOptim.new groups lrate with ho
  obtain ⟨hb, h3⟩ : ∃ hb, (e.sync params).backward (F := F) true (o.initStep h) = .ok hb := by
    unfold Elbo.backward
    rw [if_neg (by simp [Elbo.sync, ht]), if_neg (show ¬ (e.sync params).mb = 0 from hmb)]
    exact ⟨_, rfl⟩
  have hz : o.count % o.groups.length = 0 := Nat.zero_mod _
  have hup : ∀ p ∈ groups[0], (o.step hb).2 p = (hb p).update lrate := by
    intro p hp
    have hs := (C28_step_updates_one_group o hb hn).2.1 0 hG p hp
    rw [if_pos hz] at hs
    exact hs
  have hini : ∀ p ∈ groups[0], o.initStep h p = (h p).zeroStats := by
    intro p hp
    rw [initStep_apply]
    exact if_pos (List.mem_flatten.2 ⟨_, List.getElem_mem hG, hp⟩)
  have hpp : ∀ p ∈ groups[0], (hb p).prior = (h p).prior ∧ (hb p).post = (h p).post := by
    intro p hp
    have := (C25_backward_idempotent (e.sync params) true _ hb h3).2.2 p
    rw [hini p hp] at this
    exact this
  refine ⟨(o.step hb).2, (o.step hb).1.stateDict, ?_, fun p hp s hpm hs => ?_, fun p hp hno => ?_⟩
  · simp only [updateCmd, mergeJobs, List.foldlM_nil, pure, Except.pure, ← ho, h3]
  · have hst : (hb p).stats = ((e.datasize : F) / (e.mb : F)) • s := by
      unfold Elbo.backward at h3
      rw [if_neg (by simp [Elbo.sync, ht]), if_neg (show ¬ (e.sync params).mb = 0 from hmb)] at h3
      rw [← Except.ok.inj h3]
      simp [Elbo.sync, hpm, hs, Param.storeStats]
    rw [hup p hp]
    simp only [Param.update, hst, hpp p hp]
  · have hst : (hb p).stats = 0 := by
      rw [(C25_backward_idempotent (e.sync params) true _ hb h3).2.1 p hno, hini p hp]
      rfl
    rw [hup p hp]
    simp only [Param.update, hst, hpp p hp, add_zero]

-- an objective that lost all its parameters
example : ∃ h' st, updateCmd [[1], [0, 2]] {0, 1, 2} (1 : ℚ) none [{ demoE2 with params := ∅ }] (fun _ => (⟨7, 5, 3⟩ : Param ℚ))
    = .ok (h', st) ∧ (h' 1).post ≠ 7 := by
  obtain ⟨h', st, h1, h2, _⟩ := C71_reconnected [[1], [0, 2]] {0, 1, 2} (1 : ℚ) { demoE2 with params := ∅ } (fun _ => (⟨7, 5, 3⟩ : Param ℚ))
    (by decide) (by decide) rfl (by decide)
  refine ⟨h', st, h1, ?_⟩
  rw [h2 1 (by decide) _ (by decide) rfl]
  norm_num [demoE2]

example : ∃ h' st, ([[], [demoE2], [demoE1]].mapM (accumulateJob 10)
      >>= fun rs => updateCmd [[1], [0, 2]] {0, 1, 2} (1 : ℚ) none rs (fun _ => ⟨7, 5, 3⟩))
      = Except.ok (h', st) ∧ (h' 1).post = 19 ∧ (h' 0).post = 5 ∧ st = (1, 1) := by
  refine ⟨_, _, rfl, ?_, ?_, rfl⟩ <;>
  norm_num [CjgOptim.step, CjgOptim.initStep, Heap.set, Param.update, Param.zeroStats, CjgOptim.new,
    Param.storeStats, demoE1, demoE2, addAcc, Elbo.empty, Elbo.sync]

end optimizer

/-! ## C74: missing utterances -/

/-- **C74 (negation).** If the first utterance asked for is not in the data set, the accumulate
command crashes while formatting its warning, whatever follows. -/
theorem C74_first_missing_crashes [Field F] [AddCommMonoid V] (dataset : ι → Option X) (ds : ℤ)
    (hds : 0 < ds) (elboOf : X → Except Err (Elbo F V)) (u : ι) (us : List ι)
    (hu : dataset u = none) :
    accumulateCmd dataset ds elboOf (u :: us) = .error .nameError := by
  simp [accumulateCmd, evidenceLowerBound, hds, accumulateLoop, hu]

theorem accumulateLoop_bound [Field F] [AddCommMonoid V] (dataset : ι → Option X)
    (elboOf : X → Except Err (Elbo F V)) (us : List ι) (e : Elbo F V) (c : ℕ) :
    accumulateLoop dataset elboOf us true e c
      = accumulateLoop dataset elboOf (us.filter (fun u => (dataset u).isSome)) true e c := by
  induction us generalizing e c with
  | nil => rfl
  | cons u us ih =>
    cases hu : dataset u with
    | none => simp only [accumulateLoop, hu, if_true]; rw [ih]; simp [hu]
    | some x =>
      have : (u :: us).filter (fun u => (dataset u).isSome)
          = u :: us.filter (fun u => (dataset u).isSome) := by simp [hu]
      rw [this]
      simp only [accumulateLoop, hu]
      cases elboOf x with
      | error _ => rfl
      | ok e' =>
        dsimp only
        cases e.add (.elbo e') with
        | error _ => rfl
        | ok e'' => exact ih e'' (c + 1)

/-- **C74 (what holds).** If the first utterance is present, the missing ones are skipped. -/
theorem C74_missing_skipped_partial [Field F] [AddCommMonoid V] (dataset : ι → Option X) (ds : ℤ)
    (elboOf : X → Except Err (Elbo F V)) (u : ι) (us : List ι) (hu : (dataset u).isSome) :
    accumulateCmd dataset ds elboOf (u :: us)
      = accumulateCmd dataset ds elboOf ((u :: us).filter (fun u => (dataset u).isSome)) := by
  obtain ⟨x, hx⟩ := Option.isSome_iff_exists.1 hu
  have : (u :: us).filter (fun u => (dataset u).isSome)
      = u :: us.filter (fun u => (dataset u).isSome) := by simp [hx]
  rw [this]
  unfold accumulateCmd
  cases evidenceLowerBound (F := F) (V := V) (X := X) none none ds with
  | error _ => rfl
  | ok e0 =>
    simp only [accumulateLoop, hx]
    cases elboOf x with
    | error _ => rfl
    | ok e' =>
      dsimp only
      cases e0.add (.elbo e') with
      | error _ => rfl
      | ok e'' => exact accumulateLoop_bound dataset elboOf us e'' _

example : (accumulateCmd (fun k : ℕ => if k = 1 then none else some k) 10
    (fun k => .ok (if k = 0 then demoE1 else demoE2)) [0, 1, 2]).isOk = true := by
  simp [accumulateCmd, evidenceLowerBound, accumulateLoop, Elbo.add, Elbo.empty, demoE1, demoE2,
    Except.isOk, Except.toBool]

/-! ## C68 -/

/-- **C68 (negation).** With the default batch size −1 ("all the utterances as one batch") the training
command updates after every single utterance. -/
theorem C68_minus_one_updates_every_utterance {U : Type} (utts : List U) (i : ℤ) :
    trainSchedule (-1) utts i [] = .ok (utts.map (fun u => [u]), []) := by
  induction utts generalizing i with
  | nil => rfl
  | cons u us ih =>
    have h : Int.fmod i (-1) = 0 := Int.fmod_eq_zero_of_dvd ⟨-i, by ring⟩
    simp [trainSchedule, ih, h]

/-- **C68 (negation).** For two utterances this is not the single batch of the documentation. -/
theorem C68_not_one_batch : trainSchedule (-1) ["a", "b"] 1 [] ≠ .ok ([["a", "b"]], []) := by
  rw [C68_minus_one_updates_every_utterance]; simp

/-- With a positive batch size the schedule processes the utterances in order. -/
theorem C68_schedule_covers_partial {U : Type} (b : ℤ) (hb : b ≠ 0) (utts : List U) (i : ℤ) (pending : List U) :
    ∃ bs left, trainSchedule b utts i pending = .ok (bs, left)
      ∧ bs.flatten ++ left = pending ++ utts := by
  induction utts generalizing i pending with
  | nil => exact ⟨[], pending, rfl, by simp⟩
  | cons u us ih =>
    simp only [trainSchedule, hb, if_false]
    split
    · obtain ⟨bs, left, h1, h2⟩ := ih (i + 1) []
      rw [h1]
      exact ⟨(pending ++ [u]) :: bs, left, rfl, by simp [h2]⟩
    · obtain ⟨bs, left, h1, h2⟩ := ih (i + 1) (pending ++ [u])
      exact ⟨bs, left, h1, by simp [h2]⟩

/-- **C68.** The batch size for which an epoch of `n` utterances is a single batch is `n` itself. -/
theorem C68_one_batch_partial {U : Type} (utts : List U) (hne : utts ≠ []) :
    trainSchedule utts.length utts 1 [] = .ok ([utts], []) := by
  have gen : ∀ (us : List U) (pending : List U), us ≠ [] →
      trainSchedule ((pending.length + us.length : ℕ) : ℤ) us (pending.length + 1) pending
        = .ok ([pending ++ us], []) := by
    intro us
    induction us with
    | nil => intro _ h; exact absurd rfl h
    | cons u us ih =>
      intro pending _
      have h0 : ((pending.length + (u :: us).length : ℕ) : ℤ) ≠ 0 := by
        simp only [List.length_cons]; omega
      simp only [trainSchedule, h0, if_false]
      rw [Int.fmod_eq_emod_of_nonneg _ (by positivity)]
      by_cases hus : us = []
      · subst hus
        simp [trainSchedule]
      · have hlt : ((pending.length : ℤ) + 1) % ((pending.length + (u :: us).length : ℕ) : ℤ) ≠ 0 := by
          have : 0 < us.length := List.length_pos_of_ne_nil hus
          rw [Int.emod_eq_of_lt (by omega) (by simp only [List.length_cons]; omega)]
          omega
        rw [if_neg hlt]
        have := ih (pending ++ [u]) hus
        simp only [List.length_append, List.length_cons, List.length_nil] at this ⊢
        simpa [Nat.add_assoc, Nat.add_comm, Nat.add_left_comm, add_assoc, add_comm, add_left_comm] using this
  simpa using gen utts [] hne

/-- Five utterances with batch size 2: the last utterance is never used. -/
example : trainSchedule 2 [1, 2, 3, 4, 5] 1 [] = .ok ([[1, 2], [3, 4]], [5]) := by decide

end Verif.Props
