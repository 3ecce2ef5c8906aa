import Verif.Props.PathTrain
import Verif.Props.Stall

/-!
# C177 — Viterbi training stops
-/

namespace Verif.Props

open Real Verif Verif.Spec Verif.VB Verif.Dists Verif.DistSpec

variable {X P : Type} {S : ℕ}

/-- A sequence which grows until it does not change any more, and whose next value depends on finitely many cases only. -/
theorem stops_of_finite {Θ A : Type} [Fintype A] (Good : Θ → Prop) (f : Θ → Θ) (a : Θ → A) (J : Θ → ℝ) (hf : ∀ x, Good x → Good (f x))
    (hJ : ∀ x, Good x → f x ≠ x → J x < J (f x)) (ha : ∀ x y, Good x → Good y → a x = a y → f x = f y) (x : Θ) (hx : Good x) :
    ∃ k ≤ Fintype.card A, f (f^[k] x) = f^[k] x := by
  by_contra h
  push Not at h
  have hg : ∀ k, Good (f^[k] x) := by
    intro k
    induction k with
    | zero => exact hx
    | succ k ih => rw [Function.iterate_succ_apply']; exact hf _ ih
  have hlt : ∀ k ≤ Fintype.card A, J (f^[k] x) < J (f^[k + 1] x) := fun k hk => by
    rw [Function.iterate_succ_apply']
    exact hJ _ (hg k) (h k hk)
  have hmono : ∀ i j, i < j → j ≤ Fintype.card A + 1 → J (f^[i] x) < J (f^[j] x) := by
    intro i j hij hj
    induction j with
    | zero => omega
    | succ j ih =>
      rcases Nat.lt_succ_iff_lt_or_eq.1 hij with h1 | h1
      · exact (ih h1 (by omega)).trans (hlt j (by omega))
      · subst h1
        exact hlt i (by omega)
  obtain ⟨i, j, hne, hij⟩ := Fintype.exists_ne_map_eq_of_card_lt (fun k : Fin (Fintype.card A + 1) => a (f^[k.val] x)) (by simp)
  have hij' := ha _ _ (hg i.val) (hg j.val) hij
  rw [← Function.iterate_succ_apply' f, ← Function.iterate_succ_apply' f] at hij'
  have hi := i.2
  have hj := j.2
  rcases lt_or_gt_of_ne (fun h => hne (Fin.ext h) : i.val ≠ j.val) with h1 | h1
  · exact absurd (congrArg J hij') (hmono (i.val + 1) (j.val + 1) (by omega) (by omega)).ne
  · exact absurd (congrArg J hij').symm (hmono (j.val + 1) (i.val + 1) (by omega) (by omega)).ne

section
variable (am : Frame S → Fin S) (g : CGraph S) (inner : SetModel X S) (V : inner.State → Prop) (XV : X → Prop)

theorem pathStep_eq (hin : Lawful inner V XV) (st : inner.State) (hv : V st) (a : ℝ) (utts : List (PUtt X S))
    (hu : ∀ u ∈ utts, (∀ t, XV (u.utt.2 t)) ∧ Usable g u) (scale l : ℝ) :
    pathStep am g inner st a utts scale l = inner.step st ((utts.map fun u => List.ofFn fun t => (u.utt.2 t, fun s =>
      a * pathResps (chosen am g (scoresOf inner st a u.utt) u.path) t s)).flatten) scale l := by
  unfold pathStep
  rw [mapM_ok_map _ _ utts fun u h => givenRows_eq am g inner V XV hin st hv a u (hu u h).1 (hu u h).2]
  rfl

theorem pathTrain_cons (a : ℝ) (utts : List (PUtt X S)) (scale : ℝ) (st st' : inner.State) (l : ℝ) (ls : List ℝ)
    (h : pathStep am g inner st a utts scale l = .ok st') :
    pathTrain am g inner a utts scale st (l :: ls) = pathTrain am g inner a utts scale st' ls := by
  rw [pathTrain, h]

/-- **C177, strict.** A step which does not increase the objective changes no parameter. -/
theorem C177_strict (ham : IsArgmax am) (hin : Lawful inner V XV) (hst : Strict inner V XV) (st : inner.State) (hv : V st) (a : ℝ) (ha : 0 ≤ a)
    (utts : List (PUtt X S)) (hu : ∀ u ∈ utts, (∀ t, XV (u.utt.2 t)) ∧ Usable g u) (scale l : ℝ)
    (hs : 0 ≤ scale) (h0 : 0 < l) (h1 : l ≤ 1) :
    ∃ st', pathStep am g inner st a utts scale l = .ok st' ∧ V st' ∧
      (st' ≠ st → pathObjective g inner a utts scale st < pathObjective g inner a utts scale st') := by
  set rowsOf : PUtt X S → List (X × (Fin S → ℝ)) := fun u =>
    List.ofFn fun t => (u.utt.2 t, fun s => a * pathResps (chosen am g (scoresOf inner st a u.utt) u.path) t s) with hrows
  have hrow : ∀ r ∈ (utts.map rowsOf).flatten, XV r.1 ∧ ∀ m, 0 ≤ r.2 m := by
    intro r h
    obtain ⟨L, hL, hr⟩ := List.mem_flatten.1 h
    obtain ⟨u, hu', rfl⟩ := List.mem_map.1 hL
    rw [hrows, List.mem_ofFn] at hr
    obtain ⟨t, rfl⟩ := hr
    refine ⟨(hu u hu').1 t, fun s => mul_nonneg ha ?_⟩
    unfold pathResps
    split_ifs <;> norm_num
  obtain ⟨st', e, v, _⟩ := hin.step_ok st ((utts.map rowsOf).flatten) scale l hv hrow hs h0 h1
  refine ⟨st', (pathStep_eq am g inner V XV hin st hv a utts hu scale l).trans e, v, fun hne => ?_⟩
  by_contra hle
  refine hne (hst st _ scale l st' hv hrow hs h0 h1 e ?_).1
  have key : ((utts.map rowsOf).flatten.map fun r =>
        ∑ m, r.2 m * (valueOf 0 (inner.llh st' r.1) m - valueOf 0 (inner.llh st r.1) m)).sum ≤
      (utts.map fun u => sequenceScore g (scoresOf inner st' a u.utt) u.path - sequenceScore g (scoresOf inner st a u.utt) u.path).sum := by
    rw [sum_flatten_map]
    refine sum_map_le utts _ _ fun u h => ?_
    refine le_trans (le_of_eq ?_) (sequence_gain ham g u (hu u h).2 (scoresOf inner st a u.utt) (scoresOf inner st' a u.utt))
    rw [hrows, List.map_ofFn, List.sum_ofFn]
    refine Finset.sum_congr rfl fun t _ => Finset.sum_congr rfl fun s _ => ?_
    unfold scoresOf
    ring
  have key' := mul_le_mul_of_nonneg_left key hs
  rw [sum_map_sub', mul_sub] at key'
  have o : ∀ st, pathObjective g inner a utts scale st =
      scale * (utts.map fun u => sequenceScore g (scoresOf inner st a u.utt) u.path).sum - valueOf 0 (inner.kl st) := fun st => rfl
  rw [o, o] at hle
  linarith

end

/-- **C177, Viterbi stops.** With learning rate one, training with Viterbi (or with given sequences, or both) reaches after finitely many
steps, at most the number of state sequences of the data, parameters which no further step changes. -/
theorem C177_stops {am : Frame S → Fin S} (ham : IsArgmax am) (g : CGraph S) (fam : Family X P) (V : P → Prop) (XV : X → Prop) (base : ℝ)
    (hopt : OneStepOptimal fam V XV base) (hin : Lawful (familySet fam S) (SetValid V) XV) (hst : Strict (familySet fam S) (SetValid V) XV)
    (a : ℝ) (ha : 0 ≤ a) (utts : List (PUtt X S)) (hu : ∀ u ∈ utts, (∀ t, XV (u.utt.2 t)) ∧ Usable g u) (scale : ℝ) (hs : 0 ≤ scale)
    (st : Fin S → CParam P) (hv : SetValid V st) :
    ∃ k ≤ S ^ (utts.map fun u => u.utt.1 + 1).sum, ∃ st', pathTrain am g (familySet fam S) a utts scale st (List.replicate k 1) = .ok st' ∧
      SetValid V st' ∧ ∀ n, pathTrain am g (familySet fam S) a utts scale st' (List.replicate n 1) = .ok st' := by
  classical
  let Good : (Fin S → CParam P) → Prop := fun s => SetValid V s ∧ ∀ m, (s m).prior = (st m).prior
  let f : (Fin S → CParam P) → (Fin S → CParam P) := fun s => valueOf s (pathStep am g (familySet fam S) s a utts scale 1)
  let asg : (Fin S → CParam P) → (∀ i : Fin utts.length, Fin ((utts.get i).utt.1 + 1) → Fin S) := fun s i =>
    chosen am g (scoresOf (familySet fam S) s a (utts.get i).utt) (utts.get i).path
  let rowsOf : (∀ i : Fin utts.length, Fin ((utts.get i).utt.1 + 1) → Fin S) → List (X × (Fin S → ℝ)) := fun p =>
    (List.ofFn fun i => List.ofFn fun t => ((utts.get i).utt.2 t, fun s => a * pathResps (p i) t s)).flatten
  have hrows : ∀ s, SetValid V s → pathStep am g (familySet fam S) s a utts scale 1 = (familySet fam S).step s (rowsOf (asg s)) scale 1 := by
    intro s hvs
    rw [pathStep_eq am g (familySet fam S) (SetValid V) XV hin s hvs a utts hu scale 1]
    have : (utts.map fun u => List.ofFn fun t => (u.utt.2 t, fun k => a * pathResps (chosen am g (scoresOf (familySet fam S) s a u.utt) u.path) t k))
        = List.ofFn fun i => List.ofFn fun t => ((utts.get i).utt.2 t, fun k => a * pathResps (asg s i) t k) := by
      conv_lhs => rw [← List.ofFn_get utts]
      rw [List.map_ofFn]
      rfl
    rw [this]
  have hxr : ∀ p, ∀ r ∈ rowsOf p, XV r.1 ∧ ∀ m, 0 ≤ r.2 m := by
    intro p r hr
    obtain ⟨L, hL, hr⟩ := List.mem_flatten.1 hr
    obtain ⟨i, rfl⟩ := (List.mem_ofFn' _ _).1 hL
    obtain ⟨t, rfl⟩ := (List.mem_ofFn' _ _).1 hr
    refine ⟨(hu _ (List.get_mem utts i)).1 t, fun s => mul_nonneg ha ?_⟩
    unfold pathResps
    split_ifs <;> norm_num
  choose best a0 a1 hb _ _ _ hq using fun (p : ∀ i : Fin utts.length, Fin ((utts.get i).utt.1 + 1) → Fin S) m =>
    hopt (st m).prior ((rowsOf p).map fun r => (r.2 m, r.1)) scale (hv m).1 (by
      intro r hr
      obtain ⟨r', hr', rfl⟩ := List.mem_map.1 hr
      exact ⟨(hxr p r' hr').2 m, (hxr p r' hr').1⟩) hs
  have hfix : ∀ s, Good s → pathStep am g (familySet fam S) s a utts scale 1 = .ok fun m => ⟨(st m).prior, best (asg s) m⟩ := by
    intro s hgs
    rw [hrows s hgs.1]
    refine seqFin_ok _ _ fun m => ?_
    obtain ⟨k, h1, _⟩ := hq (asg s) m (s m).post (hgs.1 m).2
    rw [List.map_map] at h1
    have hsm : s m = ⟨(st m).prior, (s m).post⟩ := by
      rw [← hgs.2 m]
    rw [hsm]
    exact h1
  have hfs : ∀ s, Good s → f s = fun m => ⟨(st m).prior, best (asg s) m⟩ := by
    intro s hgs
    show valueOf s _ = _
    rw [hfix s hgs]
    rfl
  have hfg : ∀ s, Good s → Good (f s) := by
    intro s hgs
    rw [hfs s hgs]
    exact ⟨fun m => ⟨(hv m).1, hb _ _⟩, fun m => rfl⟩
  have hstepf : ∀ s, Good s → pathStep am g (familySet fam S) s a utts scale 1 = .ok (f s) := fun s hgs => by
    rw [hfix s hgs, hfs s hgs]
  obtain ⟨k, hk, hfp⟩ := stops_of_finite Good f asg (pathObjective g (familySet fam S) a utts scale) hfg
    (fun s hgs hne => by
      obtain ⟨st', e, _, h⟩ := C177_strict am g (familySet fam S) (SetValid V) XV ham hin hst s hgs.1 a ha utts hu scale 1 hs one_pos le_rfl
      rw [hstepf s hgs] at e
      rw [← Except.ok.inj e] at h
      exact h hne)
    (fun s s' hgs hgs' e => by rw [hfs s hgs, hfs s' hgs', e]) st ⟨hv, fun m => rfl⟩
  have htrain : ∀ n s, Good s → pathTrain am g (familySet fam S) a utts scale s (List.replicate n 1) = .ok (f^[n] s) := by
    intro n
    induction n with
    | zero => intro s _; rfl
    | succ n ih =>
      intro s hgs
      rw [List.replicate_succ]
      exact (pathTrain_cons am g (familySet fam S) a utts scale s (f s) 1 _ (hstepf s hgs)).trans (ih _ (hfg s hgs))
  have hgk : ∀ n, Good (f^[n] st) := by
    intro n
    induction n with
    | zero => exact ⟨hv, fun m => rfl⟩
    | succ n ih => rw [Function.iterate_succ_apply']; exact hfg _ ih
  refine ⟨k, hk.trans (le_of_eq ?_), f^[k] st, htrain k st ⟨hv, fun m => rfl⟩, (hgk k).1, fun n => ?_⟩
  · rw [Fintype.card_pi]
    simp only [Fintype.card_fun, Fintype.card_fin]
    rw [Finset.prod_pow_eq_pow_sum]
    congr 1
    conv_rhs => rw [← List.ofFn_get utts]
    rw [List.map_ofFn, List.sum_ofFn]
    rfl
  · rw [htrain n _ (hgk k)]
    rw [Function.iterate_fixed hfp]

-- two frames, two states: at most four steps
example {am : Frame 2 → Fin 2} (ham : IsArgmax am) : ∃ k ≤ 2 ^ 2, ∃ st',
    pathTrain am stayGraph (familySet (dirFam 2) 2) 1 [stayUtt] 1 stayState (List.replicate k 1) = .ok st' ∧ SetValid (DirValid 2) st' ∧
    ∀ n, pathTrain am stayGraph (familySet (dirFam 2) 2) 1 [stayUtt] 1 st' (List.replicate n 1) = .ok st' :=
  C177_stops ham stayGraph (dirFam 2) _ _ 0 (C90_dirichlet_optimal (by norm_num)) (C87_categoricalset (by norm_num) 2)
    (C172_categoricalset le_rfl 2) 1 (by norm_num) [stayUtt]
    (by intro u hu; rw [List.mem_singleton] at hu; subst hu; exact ⟨stayUtt_valid, stay_usable⟩) 1 (by norm_num) stayState stay_valid

example {am : Frame 2 → Fin 2} (ham : IsArgmax am) :
    pathObjective stayGraph (familySet (dirFam 2) 2) 1 [stayUtt] 1 stayState < pathObjective stayGraph (familySet (dirFam 2) 2) 1 [stayUtt] 1 stayNext := by
  obtain ⟨st', e, _, h⟩ := C177_strict am stayGraph (familySet (dirFam 2) 2) _ _ ham (C87_categoricalset (by norm_num) 2) (C172_categoricalset le_rfl 2)
    stayState stay_valid 1 (by norm_num) [stayUtt]
    (by intro u hu; rw [List.mem_singleton] at hu; subst hu; exact ⟨stayUtt_valid, stay_usable⟩) 1 1 (by norm_num) (by norm_num) le_rfl
  rw [stay_step ham] at e
  rw [← Except.ok.inj e] at h
  refine h fun h' => ?_
  have := congrArg (fun s => (s 0).post) h'
  simp [stayState, stayNext] at this

end Verif.Props
