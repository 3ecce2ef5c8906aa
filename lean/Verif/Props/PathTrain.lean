import Verif.Lemmas.PathTrain
import Verif.Props.VBTrain
import Mathlib.Analysis.Complex.ExponentialBounds

/-!
# C177 — training an HMM with given state sequences and with Viterbi
-/

namespace Verif.Props

open Real Verif Verif.Spec Verif.VB Verif.Dists Verif.DistSpec

variable {X P : Type} {S : ℕ}

/-- **C177.** Training with given state sequences, with the best ones, or with some of both, never decreases the objective,
whatever the learning rates. -/
theorem C177_training {am : Frame S → Fin S} (ham : IsArgmax am) (g : CGraph S) (inner : SetModel X S) (V : inner.State → Prop)
    (XV : X → Prop) (hin : Lawful inner V XV) (a : ℝ) (ha : 0 ≤ a) (utts : List (PUtt X S))
    (hu : ∀ u ∈ utts, (∀ t, XV (u.utt.2 t)) ∧ Usable g u) (scale : ℝ) (hs : 0 ≤ scale) (ls : List ℝ) (hl : ∀ l ∈ ls, 0 < l ∧ l ≤ 1)
    (st : inner.State) (hv : V st) :
    ∃ st', pathTrain am g inner a utts scale st ls = .ok st' ∧ V st' ∧
      pathObjective g inner a utts scale st ≤ pathObjective g inner a utts scale st' := by
  induction ls generalizing st with
  | nil => exact ⟨st, rfl, hv, le_rfl⟩
  | cons l ls ih =>
    obtain ⟨h0, h1⟩ := hl l (by simp)
    obtain ⟨s1, e1, v1, hle⟩ := path_step am g inner V XV ham hin st hv a ha utts hu scale l hs h0 h1
    obtain ⟨st', e2, v2, hle'⟩ := ih (fun l h => hl l (by simp [h])) s1 v1
    refine ⟨st', ?_, v2, hle.trans hle'⟩
    rw [pathTrain, e1]
    exact e2

/-- **C177, the value.** With a given sequence the value reported is the objective; with Viterbi it leaves out the
log-probability of the sequence in the graph. -/
theorem C177_value {am : Frame S → Fin S} (ham : IsArgmax am) (g : CGraph S) (inner : SetModel X S) (V : inner.State → Prop)
    (XV : X → Prop) (hin : Lawful inner V XV) (a : ℝ) (u : PUtt X S) (hx : ∀ t, XV (u.utt.2 t)) (hu : Usable g u) (datasize : ℤ)
    (st : inner.State) (hv : V st) :
    ∃ scale r, batchScale (u.utt.1 + 1) datasize = .ok scale ∧ 0 < scale ∧ pathElbo am g inner st a u datasize = .ok r ∧
      (u.path.isSome → r = pathObjective g inner a [u] scale st) ∧
      (u.path = none → r = pathObjective g inner a [u] scale st
        - scale * log (graphWeight g (bestPath am g fun t s => ((a * valueOf 0 (inner.llh st (u.utt.2 t)) s : ℝ) : LogR)))) := by
  obtain ⟨scale, hs, hpos⟩ := batchScale_pos (Nat.succ_pos u.utt.1) datasize
  have hs' : batchScale (u.utt.1 + 1) datasize = .ok scale := hs
  obtain ⟨k, hk, _⟩ := hin.kl_ok st hv
  have hr : pathElbo am g inner st a u datasize = .ok (scale * (∑ t, scoresOf inner st a u.utt t
      (chosen am g (scoresOf inner st a u.utt) u.path t)) - k) := by
    unfold pathElbo
    rw [hs', ok_bind, hmmLlhs_eq inner V XV hin st hv a u.utt hx, ok_bind, usedPath_ok am g u hu, ok_bind, hk, ok_bind, sum_pathResps]
  have o : pathObjective g inner a [u] scale st = scale * sequenceScore g (scoresOf inner st a u.utt) u.path - k := by
    unfold pathObjective
    rw [hk]
    simp only [List.map_cons, List.map_nil, List.sum_cons, List.sum_nil, add_zero]
    rfl
  refine ⟨scale, _, hs', hpos, hr, fun h => ?_, fun h => ?_⟩
  · obtain ⟨w, path⟩ := u
    cases path with
    | none => simp at h
    | some p => rw [o]; rfl
  · obtain ⟨w, path⟩ := u
    cases path with
    | some p => simp at h
    | none =>
      rw [o, sequence_best ham g (traversable_of_feasible g w hu.2)]
      show scale * (∑ t, scoresOf inner st a w t (bestPath am g (asLog (scoresOf inner st a w)) t)) - k = _
        - scale * log (graphWeight g (bestPath am g (asLog (scoresOf inner st a w))))
      ring

/-- **C177, bound.** The objective of Viterbi training never exceeds that of training with the posteriors. -/
theorem C177_below_posteriors (g : CGraph S) (inner : SetModel X S) (a : ℝ) (utts : List (Utt X)) (hS : 0 < S) (hf : ∀ u ∈ utts, Feasible g u)
    (scale : ℝ) (hs : 0 ≤ scale) (st : inner.State) :
    pathObjective g inner a (utts.map fun u => ⟨u, none⟩) scale st ≤ hmmObjective g inner a utts scale st := by
  unfold pathObjective hmmObjective
  rw [List.map_map]
  refine sub_le_sub_right (mul_le_mul_of_nonneg_left ?_ hs) _
  refine sum_map_le utts _ _ fun u h => ?_
  set v : Fin (u.1 + 1) → Fin S → ℝ := fun t s => a * valueOf 0 (inner.llh st (u.2 t)) s with hvd
  show log (⨆ p : Fin (u.1 + 1) → Fin S, pathWeight g (asLog v) p) ≤ log (evidence g (asLog v))
  have hne : Nonempty (Fin (u.1 + 1) → Fin S) := ⟨fun _ => ⟨0, hS⟩⟩
  obtain ⟨p, hp⟩ := traversable_of_feasible g u (hf u h)
  have hpos : 0 < pathWeight g (asLog v) p := by
    rw [pathWeight_real, ← graphWeight_eq]
    exact mul_pos hp (exp_pos _)
  refine log_le_log (lt_of_lt_of_le hpos (le_ciSup (f := fun p : Fin (u.1 + 1) → Fin S => pathWeight g (asLog v) p)
    (Set.finite_range _).bddAbove p)) ?_
  exact ciSup_le fun q => Finset.single_le_sum (f := fun q => pathWeight g (asLog v) q) (fun r _ => pathWeight_nonneg g _ r)
    (Finset.mem_univ q)

/-! ## Given sequences -/

theorem wsum_onehot {n : ℕ} (a : ℝ) (stats : X → List ℝ) (m : Fin S) (L : List (X × Fin S)) (h : ∀ r ∈ L, (stats r.1).length = n) :
    wsum n (L.map fun r => (a * (if m = r.2 then 1 else 0), stats r.1))
      = wsum n ((L.filter fun r => r.2 = m).map fun r => (a, stats r.1)) := by
  induction L with
  | nil => rfl
  | cons r L ih =>
    have h' : ∀ r ∈ L, (stats r.1).length = n := fun r hr => h r (by simp [hr])
    rw [List.map_cons, wsum, ih h']
    by_cases hm : m = r.2
    · rw [if_pos hm, List.filter_cons_of_pos (by simp [hm]), List.map_cons, wsum, mul_one]
    · rw [if_neg hm, List.filter_cons_of_neg (by simpa using fun e => hm e.symm), mul_zero]
      refine List.ext_getElem ?_ ?_
      · have hl := length_wsum n ((L.filter fun r => r.2 = m).map fun r => (a, stats r.1)) (by
          intro q hq
          obtain ⟨q', hq', rfl⟩ := List.mem_map.1 hq
          exact h' q' (List.mem_of_mem_filter hq'))
        have := h r (by simp)
        simp [vadd, vsmul, hl, this]
      · intro i h1 h2
        simp [vadd, vsmul]

/-- **C177, frames.** With given sequences every state is updated with the frames aligned to it, and with nothing else. -/
theorem C177_given_frames (am : Frame S → Fin S) (g : CGraph S) (fam : Family X P) (V : P → Prop) (XV : X → Prop)
    (hin : Lawful (familySet fam S) (SetValid V) XV) (hlen : ∀ x, XV x → (fam.stats x).length = fam.sdim) (a : ℝ)
    (utts : List (PUtt X S)) (hu : ∀ u ∈ utts, (∀ t, XV (u.utt.2 t)) ∧ Usable g u ∧ u.path.isSome) (scale l : ℝ)
    (st : Fin S → CParam P) (hv : SetValid V st) :
    pathStep am g (familySet fam S) st a utts scale l = seqFin fun m =>
      fam.update (st m) (vsmul scale (wsum fam.sdim ((framesOf m utts).map fun x => (a, fam.stats x)))) l := by
  unfold pathStep
  rw [mapM_ok_map _ _ utts fun u h => givenRows_eq am g (familySet fam S) (SetValid V) XV hin st hv a u (hu u h).1 (hu u h).2.1]
  show (seqFin fun m => fam.update (st m) (vsmul scale (wsum fam.sdim (List.map _ _))) l) = _
  congr 1
  funext m
  congr 2
  -- the frames with their states
  set pairs : PUtt X S → List (X × Fin S) := fun u => List.ofFn fun t =>
    (u.utt.2 t, chosen am g (scoresOf (familySet fam S) st a u.utt) u.path t) with hpairs
  have e1 : (List.map (fun r : X × (Fin S → ℝ) => (r.2 m, fam.stats r.1)) (utts.map fun u => List.ofFn fun t => (u.utt.2 t, fun s => a *
      pathResps (chosen am g (scoresOf (familySet fam S) st a u.utt) u.path) t s)).flatten)
      = ((utts.map pairs).flatten).map fun r => (a * (if m = r.2 then 1 else 0), fam.stats r.1) := by
    rw [List.map_flatten, List.map_flatten, List.map_map, List.map_map]
    congr 1
    refine List.map_congr_left fun u _ => ?_
    simp only [Function.comp, hpairs, List.map_ofFn]
    rfl
  rw [e1, wsum_onehot a fam.stats m _ (by
    intro r hr
    obtain ⟨L, hL, hr⟩ := List.mem_flatten.1 hr
    obtain ⟨u, hu', rfl⟩ := List.mem_map.1 hL
    rw [hpairs, List.mem_ofFn] at hr
    obtain ⟨t, rfl⟩ := hr
    exact hlen _ ((hu u hu').1 t))]
  congr 1
  have e2 : ((utts.map pairs).flatten.filter fun r => r.2 = m).map (fun r => (a, fam.stats r.1))
      = (((utts.map pairs).flatten.filter fun r => r.2 = m).map Prod.fst).map fun x => (a, fam.stats x) := by
    rw [List.map_map]; rfl
  rw [e2]
  congr 1
  unfold framesOf
  rw [List.filter_flatten, List.map_flatten, List.map_map, List.map_map]
  congr 1
  refine List.map_congr_left fun u h => ?_
  obtain ⟨w, path⟩ := u
  cases path with
  | none => exact absurd (hu _ h).2.2 (by simp)
  | some p =>
    simp only [Function.comp, hpairs, List.ofFn_eq_map, List.filter_map, List.map_map]
    congr 1
    refine List.filter_congr fun t _ => ?_
    simp [chosen]

/-- **C177, exact.** With given sequences one step with learning rate one reaches, from any posterior, the parameters with the largest
objective: the exact posteriors given the frames aligned to each state. A further step changes nothing. -/
theorem C177_given_exact {am : Frame S → Fin S} (ham : IsArgmax am) (g : CGraph S) (fam : Family X P) (V : P → Prop) (XV : X → Prop) (base : ℝ)
    (hopt : OneStepOptimal fam V XV base) (hin : Lawful (familySet fam S) (SetValid V) XV)
    (hlen : ∀ x, XV x → (fam.stats x).length = fam.sdim) (a : ℝ) (ha : 0 ≤ a)
    (utts : List (PUtt X S)) (hu : ∀ u ∈ utts, (∀ t, XV (u.utt.2 t)) ∧ Usable g u ∧ u.path.isSome) (scale : ℝ) (hs : 0 ≤ scale)
    (prior : Fin S → P) (hp : ∀ m, V (prior m)) :
    ∃ best : Fin S → P, (∀ m, V (best m)) ∧ ∀ q : Fin S → P, (∀ m, V (q m)) →
      pathStep am g (familySet fam S) (fun m => ⟨prior m, q m⟩) a utts scale 1 = .ok (fun m => ⟨prior m, best m⟩) ∧
      pathObjective g (familySet fam S) a utts scale (fun m => ⟨prior m, q m⟩)
        ≤ pathObjective g (familySet fam S) a utts scale (fun m => ⟨prior m, best m⟩) := by
  have hx : ∀ m, ∀ x ∈ framesOf m utts, XV x := by
    intro m x h
    obtain ⟨L, hL, hx⟩ := List.mem_flatten.1 h
    obtain ⟨u, hu', rfl⟩ := List.mem_map.1 hL
    obtain ⟨t, _, rfl⟩ := List.mem_map.1 hx
    exact (hu u hu').1 t
  choose best a0 a1 hb _ _ _ hq using fun m => hopt (prior m) ((framesOf m utts).map fun x => (a, x)) scale (hp m) (by
    intro r hr
    obtain ⟨x, hxm, rfl⟩ := List.mem_map.1 hr
    exact ⟨ha, hx m x hxm⟩) hs
  have hstep : ∀ q : Fin S → P, (∀ m, V (q m)) →
      pathStep am g (familySet fam S) (fun m => ⟨prior m, q m⟩) a utts scale 1 = .ok (fun m => ⟨prior m, best m⟩) := by
    intro q hqv
    rw [C177_given_frames am g fam V XV hin hlen a utts hu scale 1 _ fun m => ⟨hp m, hqv m⟩]
    refine seqFin_ok _ _ fun m => ?_
    obtain ⟨k, h1, _⟩ := hq m (q m) (hqv m)
    rw [List.map_map] at h1
    exact h1
  refine ⟨best, hb, fun q hqv => ⟨hstep q hqv, ?_⟩⟩
  obtain ⟨st', e, _, hle⟩ := path_step am g (familySet fam S) (SetValid V) XV ham hin (fun m => ⟨prior m, q m⟩)
    (fun m => ⟨hp m, hqv m⟩) a ha utts (fun u h => ⟨(hu u h).1, (hu u h).2.1⟩) scale 1 hs one_pos le_rfl
  rw [hstep q hqv] at e
  rw [Except.ok.inj e]
  exact hle

/-! ## Errors -/

/-- **C177, short utterances.** A state number not smaller than the number of frames raises `IndexError`, given or found. -/
theorem C177_short (am : Frame S → Fin S) (g : CGraph S) (inner : SetModel X S) (V : inner.State → Prop)
    (XV : X → Prop) (hin : Lawful inner V XV) (a : ℝ) (u : PUtt X S) (hx : ∀ t, XV (u.utt.2 t)) (st : inner.State) (hv : V st)
    (scale l : ℝ) (t : Fin (u.utt.1 + 1))
    (h : (∃ p, u.path = some p ∧ u.utt.1 < (p t).val) ∨ (u.path = none ∧
      u.utt.1 < (bestPath am g (fun t s => ((a * valueOf 0 (inner.llh st (u.utt.2 t)) s : ℝ) : LogR)) t).val)) :
    pathStep am g inner st a [u] scale l = .error .indexError := by
  have hr : givenRows am g inner st a u = .error .indexError := by
    unfold givenRows
    rw [hmmLlhs_eq inner V XV hin st hv a u.utt hx, ok_bind, usedPath_eq, if_neg]
    · rfl
    · intro hall
      have h1 := hall t
      obtain ⟨w, path⟩ := u
      rcases h with ⟨p, hpath, hp⟩ | ⟨hpath, hp⟩
      · have hpath' : path = some p := hpath
        cases path with
        | none => simp at hpath'
        | some q =>
          rw [Option.some.injEq] at hpath'
          have : (q t).val < w.1 + 1 := h1
          rw [hpath'] at this
          have hp' : w.1 < (p t).val := hp
          omega
      · have hpath' : path = none := hpath
        cases path with
        | some q => simp at hpath'
        | none =>
        have : (bestPath am g (asLog (scoresOf inner st a w)) t).val < w.1 + 1 := h1
        have hp' : w.1 < (bestPath am g (asLog (scoresOf inner st a w)) t).val := hp
        omega
  unfold pathStep
  rw [List.mapM_cons, hr]
  rfl

/-- **C177, impossible utterances.** Unlike with posteriors (`C88_infeasible`), an utterance the graph does not allow does not stop the
Viterbi training: its frames are given to a sequence of states of probability zero. -/
theorem C177_impossible_accepted (am : Frame S → Fin S) (g : CGraph S) (inner : SetModel X S) (V : inner.State → Prop)
    (XV : X → Prop) (hin : Lawful inner V XV) (a : ℝ) (ha : 0 ≤ a) (u : Utt X) (hx : ∀ t, XV (u.2 t)) (hS : S ≤ u.1 + 1) (hf : ¬ Feasible g u)
    (st : inner.State) (hv : V st) (scale l : ℝ) (hs : 0 ≤ scale) (h0 : 0 < l) (h1 : l ≤ 1) :
    ∃ st' p, pathStep am g inner st a [⟨u, none⟩] scale l = .ok st' ∧ V st' ∧
      inner.step st (List.ofFn fun t => (u.2 t, fun s => a * if s = p t then 1 else 0)) scale l = .ok st' ∧ graphWeight g p = 0 := by
  set p := bestPath am g (asLog (scoresOf inner st a u)) with hp
  set rows : List (X × (Fin S → ℝ)) := List.ofFn fun t => (u.2 t, fun s => a * pathResps p t s) with hrows
  obtain ⟨st', e, v, _⟩ := hin.step_ok st rows scale l hv (by
    intro r hr
    rw [hrows, List.mem_ofFn] at hr
    obtain ⟨t, rfl⟩ := hr
    refine ⟨hx t, fun s => mul_nonneg ha ?_⟩
    unfold pathResps
    split_ifs <;> norm_num) hs h0 h1
  refine ⟨st', p, ?_, v, e, ?_⟩
  · have hr : givenRows am g inner st a ⟨u, none⟩ = .ok rows := by
      unfold givenRows
      rw [hmmLlhs_eq inner V XV hin st hv a u hx, ok_bind, usedPath_eq, if_pos (fun t => lt_of_lt_of_le (Fin.is_lt _) hS)]
      rfl
    unfold pathStep
    rw [List.mapM_cons, hr]
    show inner.step st [rows].flatten scale l = _
    rw [List.flatten_singleton]
    exact e
  · by_contra hne
    refine hf ?_
    unfold Feasible
    rw [evidence_prior]
    refine Finset.sum_pos' (fun q _ => pathPrior_nonneg g q) ⟨p, Finset.mem_univ _, ?_⟩
    rw [← graphWeight_eq]
    exact lt_of_le_of_ne (by rw [graphWeight_eq]; exact pathPrior_nonneg g p) (Ne.symm hne)

/-! ## The value reported with Viterbi can decrease -/

/-- Two states that cannot be left, the first nine times as probable as the second. -/
noncomputable def stayGraph : CGraph 2 where
  init := ![((log (9 / 10) : ℝ) : LogR), ((log (1 / 10) : ℝ) : LogR)]
  final := fun _ => ((0 : ℝ) : LogR)
  trans := ![![((0 : ℝ) : LogR), ⊥], ![⊥, ((0 : ℝ) : LogR)]]

/-- Two frames showing the first category. -/
def stayUtt : PUtt (List ℝ) 2 := ⟨⟨1, fun _ => [1, 0]⟩, none⟩

/-- The posterior of the first state is not its prior. -/
noncomputable def stayState : (familySet (dirFam 2) 2).State := fun m => if m = 0 then ⟨[1, 1], [1, 2]⟩ else ⟨[9, 1], [9, 1]⟩

/-- The parameters after one step. -/
noncomputable def stayNext : (familySet (dirFam 2) 2).State := fun m => if m = 0 then ⟨[1, 1], [1, 1]⟩ else ⟨[9, 1], [11, 1]⟩

theorem stay_valid : SetValid (DirValid 2) stayState := by
  intro m
  unfold stayState
  split_ifs <;> constructor <;> refine ⟨rfl, ?_⟩ <;> simp

theorem stayNext_valid : SetValid (DirValid 2) stayNext := by
  intro m
  unfold stayNext
  split_ifs <;> constructor <;> refine ⟨rfl, ?_⟩ <;> simp

theorem stayUtt_valid (t : Fin (stayUtt.utt.1 + 1)) : CountsValid 2 (stayUtt.utt.2 t) := by
  refine ⟨rfl, ?_⟩; simp [stayUtt]

theorem stay_prior (p : Fin (1 + 1) → Fin 2) : graphWeight stayGraph p = if p 0 = p 1 then (if p 0 = 0 then 9 / 10 else 1 / 10) else 0 := by
  unfold graphWeight
  have h : ∀ a b : Fin 2, lexp (stayGraph.init a) * lexp (stayGraph.trans a b) * lexp (stayGraph.final b)
      = if a = b then (if a = 0 then 9 / 10 else 1 / 10) else 0 := by
    have h1 : exp (log (9 / 10 : ℝ)) = 9 / 10 := exp_log (by norm_num)
    have h2 : exp (log (1 / 10 : ℝ)) = 1 / 10 := exp_log (by norm_num)
    intro a b
    fin_cases a <;> fin_cases b <;> simp only [stayGraph, lexp_coe, lexp_bot, Fin.zero_eta, Fin.mk_one, Matrix.cons_val_zero, Matrix.cons_val_one,
      exp_zero, mul_one, mul_zero, h1, h2] <;> norm_num
  rw [Fin.prod_univ_one]
  exact h (p 0) (p 1)

theorem stay_traversable : Traversable stayGraph 1 := ⟨fun _ => 0, by rw [stay_prior]; norm_num⟩

theorem stay_usable : Usable stayGraph stayUtt := by
  refine ⟨le_refl _, ?_⟩
  unfold Feasible
  rw [evidence_prior]
  obtain ⟨p, hp⟩ := stay_traversable
  rw [graphWeight_eq] at hp
  exact Finset.sum_pos' (fun q _ => pathPrior_nonneg _ q) ⟨p, Finset.mem_univ _, hp⟩

theorem dir_scores (st : (familySet (dirFam 2) 2).State) (hv : SetValid (DirValid 2) st) (t : Fin (stayUtt.utt.1 + 1)) (s : Fin 2) :
    scoresOf (familySet (dirFam 2) 2) st 1 stayUtt.utt t s = vdot (dirExpStats (st s).post) (catStats [1, 0]) := by
  unfold scoresOf
  have hl := seqFin_ok (fun m => (dirFam 2).llh (st m) (stayUtt.utt.2 t)) _ fun m =>
    (dirConj (D := 2) (by norm_num)).llh_eq _ _ (hv m).2 (stayUtt_valid t)
  have hl' : (familySet (dirFam 2) 2).llh st (stayUtt.utt.2 t) = _ := hl
  rw [hl', valueOf_ok, one_mul]
  exact add_zero _

theorem stay_scores : scoresOf (familySet (dirFam 2) 2) stayState 1 stayUtt.utt = fun _ s => if s = 0 then -(3 / 2) else -(1 / 9) := by
  funext t s
  rw [dir_scores _ stay_valid]
  have d : ∀ x : ℝ, 0 < x → digamma (x + 1) = digamma x + 1 / x := fun x hx => digamma_add_one hx
  have d1 := d 1 (by norm_num)
  have d2 := d 2 (by norm_num)
  have d9 := d 9 (by norm_num)
  norm_num at d1 d2 d9
  unfold stayState
  split_ifs with h
  · simp [vdot, dirExpStats, catStats]
    norm_num
    rw [d2, d1]
    ring
  · simp [vdot, dirExpStats, catStats]
    norm_num
    rw [d9]
    ring

theorem stayNext_scores : scoresOf (familySet (dirFam 2) 2) stayNext 1 stayUtt.utt = fun _ s => if s = 0 then -1 else -(1 / 11) := by
  funext t s
  rw [dir_scores _ stayNext_valid]
  have d : ∀ x : ℝ, 0 < x → digamma (x + 1) = digamma x + 1 / x := fun x hx => digamma_add_one hx
  have d1 := d 1 (by norm_num)
  have d11 := d 11 (by norm_num)
  norm_num at d1 d11
  unfold stayNext
  split_ifs with h
  · simp [vdot, dirExpStats, catStats]
    norm_num
    rw [d1]
    ring
  · simp [vdot, dirExpStats, catStats]
    norm_num
    rw [d11]
    ring

/-- With scores that do not depend on the frame, the best path stays in the state of the largest weight. -/
theorem stay_best {am : Frame 2 → Fin 2} (ham : IsArgmax am) (x y : ℝ) (b : Fin 2)
    (h : if b = 0 then 1 / 10 * exp (2 * y) < 9 / 10 * exp (2 * x) else 9 / 10 * exp (2 * x) < 1 / 10 * exp (2 * y)) :
    bestPath am stayGraph (asLog fun (_ : Fin (1 + 1)) s => if s = 0 then x else y) = fun _ => b := by
  set v : Fin (1 + 1) → Fin 2 → ℝ := fun _ s => if s = 0 then x else y with hv
  have hw : ∀ p : Fin (1 + 1) → Fin 2, pathWeight stayGraph (asLog v) p
      = if p 0 = p 1 then (if p 0 = 0 then 9 / 10 * exp (2 * x) else 1 / 10 * exp (2 * y)) else 0 := by
    intro p
    rw [pathWeight_real, ← graphWeight_eq, stay_prior, Fin.sum_univ_two]
    by_cases h1 : p 0 = p 1
    · rw [if_pos h1, if_pos h1, ← h1]
      by_cases h2 : p 0 = 0
      · rw [if_pos h2, if_pos h2, hv]
        simp only [h2, if_true]
        rw [two_mul]
      · rw [if_neg h2, if_neg h2, hv]
        simp only [h2, if_false]
        rw [two_mul]
    · rw [if_neg h1, if_neg h1, zero_mul]
  have hb := bestPath_weight ham stayGraph (asLog v) fun _ => b
  set q := bestPath am stayGraph (asLog v) with hq
  have ex := exp_pos (2 * x)
  have ey := exp_pos (2 * y)
  rw [hw, hw, if_pos rfl] at hb
  have e01 : q 0 = q 1 := by
    by_contra hne
    rw [if_neg hne] at hb
    split_ifs at hb <;> linarith
  rw [if_pos e01] at hb
  have e0 : q 0 = b := by
    by_contra hne
    by_cases h2 : b = 0
    · have h3 : q 0 ≠ 0 := fun e => hne (by rw [e, h2])
      rw [if_pos h2, if_neg h3] at hb
      rw [if_pos h2] at h
      linarith
    · have h3 : q 0 = 0 := by omega
      rw [if_neg h2, if_pos h3] at hb
      rw [if_neg h2] at h
      linarith
  funext i
  fin_cases i
  · exact e0
  · exact e01.symm.trans e0

theorem stay_first {am : Frame 2 → Fin 2} (ham : IsArgmax am) :
    bestPath am stayGraph (asLog (scoresOf (familySet (dirFam 2) 2) stayState 1 stayUtt.utt)) = fun _ => 1 := by
  rw [stay_scores]
  refine stay_best ham _ _ 1 ?_
  rw [if_neg (by decide)]
  have h1 : exp (2 * -(1 / 9) : ℝ) = exp (2 * -(3 / 2)) * (exp 1 * exp 1 * exp (7 / 9)) := by
    rw [← exp_add, ← exp_add, ← exp_add]
    norm_num
  have h2 : (16 / 9 : ℝ) ≤ exp (7 / 9) := by
    have := add_one_le_exp (7 / 9 : ℝ)
    linarith
  have h3 := exp_one_gt_d9
  have h4 := exp_pos (2 * -(3 / 2) : ℝ)
  have h5 : (9 : ℝ) < exp 1 * exp 1 * exp (7 / 9) := by
    have h6 : (6 : ℝ) < exp 1 * exp 1 := by nlinarith
    nlinarith
  rw [h1]
  nlinarith

theorem stay_second {am : Frame 2 → Fin 2} (ham : IsArgmax am) :
    bestPath am stayGraph (asLog (scoresOf (familySet (dirFam 2) 2) stayNext 1 stayUtt.utt)) = fun _ => 0 := by
  rw [stayNext_scores]
  refine stay_best ham _ _ 0 ?_
  rw [if_pos rfl]
  have h1 : exp (2 * -1 : ℝ) * (exp 1 * exp 1) = 1 := by
    rw [← exp_add, ← exp_add]
    norm_num
  have h2 : exp (2 * -(1 / 11) : ℝ) ≤ 1 := exp_le_one_iff.2 (by norm_num)
  have h3 := exp_one_lt_d9
  have h4 := exp_pos (2 * -1 : ℝ)
  have h5 : exp 1 * exp 1 < 9 := by nlinarith [exp_pos (1 : ℝ)]
  have h6 : 1 < exp (2 * -1) * 9 := by
    calc (1 : ℝ) = exp (2 * -1) * (exp 1 * exp 1) := h1.symm
      _ < _ := mul_lt_mul_of_pos_left h5 h4
  calc (1 / 10 : ℝ) * _ ≤ 1 / 10 * 1 := mul_le_mul_of_nonneg_left h2 (by norm_num)
    _ < 1 / 10 * (exp (2 * -1) * 9) := mul_lt_mul_of_pos_left (by linarith) (by norm_num)
    _ = _ := by ring

theorem stay_step {am : Frame 2 → Fin 2} (ham : IsArgmax am) :
    pathStep am stayGraph (familySet (dirFam 2) 2) stayState 1 [stayUtt] 1 1 = .ok stayNext := by
  have hr := givenRows_eq am stayGraph (familySet (dirFam 2) 2) _ _ (C87_categoricalset (D := 2) (by norm_num) 2) stayState stay_valid 1
    stayUtt stayUtt_valid stay_usable
  have hc : chosen am stayGraph (scoresOf (familySet (dirFam 2) 2) stayState 1 stayUtt.utt) stayUtt.path = fun _ => 1 := stay_first ham
  rw [hc] at hr
  unfold pathStep
  rw [List.mapM_cons, hr, List.mapM_nil]
  simp only [bind, Except.bind, pure, Except.pure, List.flatten_singleton]
  refine seqFin_ok _ _ fun m => ?_
  have h2 : (List.ofFn fun t : Fin (stayUtt.utt.1 + 1) => (stayUtt.utt.2 t, fun s : Fin 2 => (1 : ℝ) * pathResps (fun _ => 1) t s))
      = [([1, 0], fun s : Fin 2 => (1 : ℝ) * if s = 1 then 1 else 0), ([1, 0], fun s : Fin 2 => (1 : ℝ) * if s = 1 then 1 else 0)] := rfl
  rw [h2]
  fin_cases m
  · simp [Family.update, dirFam, stayState, stayNext, wsum, vadd, vsub, vsmul, dirNatural, dirFromNatural, catStats, bind, Except.bind]
  · simp [Family.update, dirFam, stayState, stayNext, wsum, vadd, vsub, vsmul, dirNatural, dirFromNatural, catStats, bind, Except.bind]
    norm_num

theorem stay_kl : ∃ k, (familySet (dirFam 2) 2).kl stayState = .ok k ∧ k ≤ 1 := by
  have h := seqFin_ok (fun m => (dirFam 2).paramKl (stayState m)) (fun m => if m = 0 then log 2 - 1 / 2 else 0) (by
    intro m
    rw [(dirConj (D := 2) (by norm_num)).paramKl_eq _ (stay_valid m)]
    show Except.ok (dirLogNorm (stayState m).prior - dirLogNorm (stayState m).post
      - vdot (dirExpStats (stayState m).post) (vsub (dirNatural (stayState m).prior) (dirNatural (stayState m).post))) = _
    have d : ∀ x : ℝ, 0 < x → digamma (x + 1) = digamma x + 1 / x := fun x hx => digamma_add_one hx
    have d2 := d 2 (by norm_num)
    norm_num at d2
    have g1 : lgamma 1 = 0 := by simp [lgamma]
    have g2 : lgamma 2 = 0 := by simp [lgamma]
    have g3 := lgamma_add_one (show (0 : ℝ) < 2 by norm_num)
    norm_num at g3
    unfold stayState
    split_ifs
    · simp [vdot, dirExpStats, dirNatural, dirLogNorm, vsub]
      norm_num
      rw [d2, g1, g2, g3, g2]
      ring
    · simp [vdot, dirExpStats, dirNatural, dirLogNorm, vsub])
  refine ⟨∑ m : Fin 2, (if m = 0 then log 2 - 1 / 2 else 0), ?_, ?_⟩
  · show (seqFin (fun m => (dirFam 2).paramKl (stayState m)) >>= _) = _
    rw [h]
    rfl
  · rw [Fin.sum_univ_two]
    have := log_le_sub_one_of_pos (show (0 : ℝ) < 2 by norm_num)
    norm_num
    linarith

/-- **C177 (negation).** The value reported with Viterbi can decrease: it leaves out the log-probability of the sequence in the graph, and
the best sequence changes. Two states that cannot be left, of probabilities 9/10 and 1/10, and two frames of the first category: the
frames go to the second state, while the posterior of the first one falls back to its prior; now the first one is the best. -/
theorem C177_viterbi_decrease {am : Frame 2 → Fin 2} (ham : IsArgmax am) :
    ∃ r r', pathElbo am stayGraph (familySet (dirFam 2) 2) stayState 1 stayUtt (-1) = .ok r ∧
      pathStep am stayGraph (familySet (dirFam 2) 2) stayState 1 [stayUtt] 1 1 = .ok stayNext ∧
      pathElbo am stayGraph (familySet (dirFam 2) 2) stayNext 1 stayUtt (-1) = .ok r' ∧ r' < r := by
  have hL := C87_categoricalset (D := 2) (by norm_num) 2
  have hb : batchScale (stayUtt.utt.1 + 1) (-1) = .ok 1 := by simp [batchScale, stayUtt]
  obtain ⟨k, hk, hk1⟩ := stay_kl
  obtain ⟨k', hk', hk0⟩ := hL.kl_ok stayNext stayNext_valid
  have hval : ∀ st, SetValid (DirValid 2) st → ∀ k, (familySet (dirFam 2) 2).kl st = .ok k → ∀ b : Fin 2,
      bestPath am stayGraph (asLog (scoresOf (familySet (dirFam 2) 2) st 1 stayUtt.utt)) = (fun _ => b) →
      pathElbo am stayGraph (familySet (dirFam 2) 2) st 1 stayUtt (-1)
        = .ok (1 * (∑ t, scoresOf (familySet (dirFam 2) 2) st 1 stayUtt.utt t b) - k) := by
    intro st hv k hk b hbest
    unfold pathElbo
    rw [hb, ok_bind, hmmLlhs_eq _ _ _ hL st hv 1 stayUtt.utt stayUtt_valid, ok_bind, usedPath_ok am stayGraph stayUtt stay_usable, ok_bind, hk,
      ok_bind, sum_pathResps]
    have hc : chosen am stayGraph (scoresOf (familySet (dirFam 2) 2) st 1 stayUtt.utt) stayUtt.path = fun _ => b := hbest
    rw [hc]
  refine ⟨_, _, hval stayState stay_valid k hk 1 (stay_first ham), stay_step ham,
    hval stayNext stayNext_valid k' hk' 0 (stay_second ham), ?_⟩
  rw [stay_scores, stayNext_scores]
  have hsum : ∀ c : ℝ, ∑ _t : Fin (stayUtt.utt.1 + 1), c = 2 * c := fun c => by
    show ∑ _t : Fin 2, c = _
    rw [Fin.sum_univ_two]; ring
  simp only [hsum]
  norm_num
  linarith

/-! ## The hypotheses can be met -/

example {am : Frame 2 → Fin 2} (ham : IsArgmax am) : pathObjective stayGraph (familySet (dirFam 2) 2) 1 [stayUtt] 1 stayState ≤
    pathObjective stayGraph (familySet (dirFam 2) 2) 1 [stayUtt] 1 stayNext := by
  obtain ⟨st', e, _, h⟩ := C177_training ham stayGraph (familySet (dirFam 2) 2) _ _ (C87_categoricalset (by norm_num) 2) 1 (by norm_num) [stayUtt]
    (by intro u hu; rw [List.mem_singleton] at hu; subst hu; exact ⟨stayUtt_valid, stay_usable⟩) 1 (by norm_num) [1] (by simp) stayState stay_valid
  rw [pathTrain, stay_step ham] at e
  rw [← Except.ok.inj e] at h
  exact h

/-- Three frames aligned to the two states. -/
def alignedUtt : PUtt (List ℝ) 2 := ⟨⟨2, ![[1, 0], [0, 1], [1, 0]]⟩, some ![0, 1, 1]⟩

theorem alignedUtt_ok (g : CGraph 2) : ∀ u ∈ [alignedUtt], (∀ t, CountsValid 2 (u.utt.2 t)) ∧ Usable g u ∧ u.path.isSome := by
  intro u hu
  rw [List.mem_singleton] at hu
  subst hu
  refine ⟨fun t => ?_, fun t => ?_, rfl⟩
  · have : ∀ t : Fin 3, CountsValid 2 ((![[1, 0], [0, 1], [1, 0]] : Fin 3 → List ℝ) t) := by
      intro t
      fin_cases t <;> exact ⟨rfl, by simp⟩
    exact this t
  · exact lt_of_lt_of_le (Fin.is_lt _) (by decide : 2 ≤ 2 + 1)

example : framesOf 1 [alignedUtt] = ([[0, 1], [1, 0]] : List (List ℝ)) := by
  simp [framesOf, alignedUtt, List.finRange_succ]

example : ∃ best : Fin 2 → List ℝ, (∀ m, DirValid 2 (best m)) ∧ ∀ q : Fin 2 → List ℝ, (∀ m, DirValid 2 (q m)) →
    pathStep demoArgmax coinGraph (familySet (dirFam 2) 2) (fun m => ⟨[2, 3], q m⟩) (1 / 2) [alignedUtt] 4 1 = .ok (fun m => ⟨[2, 3], best m⟩) := by
  obtain ⟨best, h1, h2⟩ := C177_given_exact demoArgmax_spec coinGraph (dirFam 2) _ _ 0 (C90_dirichlet_optimal (by norm_num))
    (C87_categoricalset (by norm_num) 2) (fun x hx => by
      obtain ⟨hx, _⟩ := hx
      match x, hx with
      | [a, b], _ => rfl) (1 / 2) (by norm_num) [alignedUtt] (alignedUtt_ok _) 4 (by norm_num) (fun _ => [2, 3])
    (fun _ => ⟨rfl, by simp⟩)
  exact ⟨best, h1, fun q hq => (h2 q hq).1⟩

example : ∃ scale r, batchScale 3 60 = .ok scale ∧ 0 < scale ∧ pathElbo demoArgmax coinGraph (familySet (dirFam 2) 2) coinState 1 alignedUtt 60 = .ok r ∧
    r = pathObjective coinGraph (familySet (dirFam 2) 2) 1 [alignedUtt] scale coinState := by
  obtain ⟨scale, r, h1, h2, h3, h4, _⟩ := C177_value demoArgmax_spec coinGraph (familySet (dirFam 2) 2) _ _ (C87_categoricalset (by norm_num) 2) 1
    alignedUtt (alignedUtt_ok coinGraph _ (by simp)).1 (alignedUtt_ok coinGraph _ (by simp)).2.1 60 coinState coin_valid
  exact ⟨scale, r, h1, h2, h3, h4 rfl⟩

example (st : (familySet (dirFam 2) 2).State) : pathObjective coinGraph (familySet (dirFam 2) 2) (1 / 2) ([coinUtt].map fun u => ⟨u, none⟩) 3 st ≤
    hmmObjective coinGraph (familySet (dirFam 2) 2) (1 / 2) [coinUtt] 3 st :=
  C177_below_posteriors _ _ _ _ (by norm_num) (fun u _ => coin_feasible u) _ (by norm_num) _

-- one frame given to the second state
example (am : Frame 2 → Fin 2) : pathStep am coinGraph (familySet (dirFam 2) 2) coinState 1 [⟨coinUtt, some fun _ => 1⟩] 1 1 = .error .indexError :=
  C177_short am coinGraph _ _ _ (C87_categoricalset (by norm_num) 2) 1 ⟨coinUtt, some fun _ => 1⟩ coinUtt_valid coinState coin_valid 1 1 0
    (Or.inl ⟨_, rfl, by decide⟩)

example (am : Frame 2 → Fin 2) : ∃ st' p, pathStep am cutGraph (familySet (dirFam 2) 2) stayState 1 [stayUtt] 1 1 = .ok st' ∧
    SetValid (DirValid 2) st' ∧
    (familySet (dirFam 2) 2).step stayState (List.ofFn fun t => (stayUtt.utt.2 t, fun s => 1 * if s = p t then 1 else 0)) 1 1 = .ok st' ∧
    graphWeight cutGraph p = 0 := by
  refine C177_impossible_accepted am cutGraph _ _ _ (C87_categoricalset (by norm_num) 2) 1 (by norm_num) stayUtt.utt stayUtt_valid
    (le_refl _) ?_ stayState stay_valid 1 1 (by norm_num) (by norm_num) le_rfl
  unfold Feasible
  rw [evidence_prior, Finset.sum_eq_zero]
  · exact lt_irrefl _
  · intro p _
    rw [← graphWeight_eq]
    have : ∏ i : Fin stayUtt.utt.1, lexp (cutGraph.trans (p i.castSucc) (p i.succ)) = 0 := by
      show ∏ i : Fin 1, lexp (⊥ : LogR) = 0
      simp
    unfold graphWeight
    rw [this]
    simp

end Verif.Props
