import Verif.Spec.PathTrain
import Verif.Lemmas.VBHmm
import Verif.Props.Detached

/-!
# Lemmas about training with state sequences
-/

namespace Verif.VB

open Real Verif Verif.Spec Verif.Props

variable {X : Type} {S n : ℕ}

theorem best_weight {am : Frame S → Fin S} (ham : IsArgmax am) (g : CGraph S) (v : Fin (n + 1) → Fin S → ℝ) :
    (⨆ p : Fin (n + 1) → Fin S, pathWeight g (asLog v) p) = pathWeight g (asLog v) (bestPath am g (asLog v)) := by
  have hne : Nonempty (Fin (n + 1) → Fin S) := ⟨bestPath am g (asLog v)⟩
  refine le_antisymm (ciSup_le fun p => bestPath_weight ham g _ p) ?_
  exact le_ciSup (f := fun p : Fin (n + 1) → Fin S => pathWeight g (asLog v) p) (Set.finite_range _).bddAbove _

/-- The states of an utterance. -/
noncomputable def chosen (am : Frame S → Fin S) (g : CGraph S) (v : Fin (n + 1) → Fin S → ℝ) :
    Option (Fin (n + 1) → Fin S) → Fin (n + 1) → Fin S
  | some p => p
  | none => bestPath am g (asLog v)

theorem usedPath_eq (am : Frame S → Fin S) (g : CGraph S) (given : Option (Fin (n + 1) → Fin S)) (v : Fin (n + 1) → Fin S → ℝ) :
    usedPath am g given v = if ∀ t, (chosen am g v given t).val < n + 1 then .ok (chosen am g v given) else .error .indexError := by
  cases given <;> rfl

theorem usedPath_ok (am : Frame S → Fin S) (g : CGraph S) (u : PUtt X S) (h : Usable g u) (v : Fin (u.utt.1 + 1) → Fin S → ℝ) :
    usedPath am g u.path v = .ok (chosen am g v u.path) := by
  rw [usedPath_eq, if_pos]
  intro t
  obtain ⟨w, path⟩ := u
  cases path with
  | none => exact lt_of_lt_of_le (chosen am g v none t).2 h.1
  | some p => exact h t

theorem sum_pathResps (p : Fin (n + 1) → Fin S) (v : Fin (n + 1) → Fin S → ℝ) :
    ∑ t, ∑ s, v t s * pathResps p t s = ∑ t, v t (p t) := by
  refine Finset.sum_congr rfl fun t _ => ?_
  unfold pathResps
  simp

theorem sum_pathResps' (p : Fin (n + 1) → Fin S) (v : Fin (n + 1) → Fin S → ℝ) :
    ∑ t, ∑ s, pathResps p t s * v t s = ∑ t, v t (p t) := by
  rw [← sum_pathResps]
  exact Finset.sum_congr rfl fun t _ => Finset.sum_congr rfl fun s _ => mul_comm _ _

theorem traversable_of_feasible (g : CGraph S) (u : Utt X) (h : Feasible g u) : Traversable g u.1 := by
  unfold Feasible at h
  rw [evidence_prior] at h
  obtain ⟨p, _, hp⟩ := Finset.exists_ne_zero_of_sum_ne_zero h.ne'
  exact ⟨p, by rw [graphWeight_eq]; exact lt_of_le_of_ne (pathPrior_nonneg g p) (Ne.symm hp)⟩

theorem sequence_best {am : Frame S → Fin S} (ham : IsArgmax am) (g : CGraph S) (h : Traversable g n) (v : Fin (n + 1) → Fin S → ℝ) :
    sequenceScore g v none = log (graphWeight g (bestPath am g (asLog v))) + ∑ t, v t (bestPath am g (asLog v) t) := by
  have hf := best_feasible ham g h v
  rw [← logPath_eq g v _ hf]
  unfold sequenceScore logPath
  rw [best_weight ham]

/-- The score of an utterance grows at least as much as along its present states. -/
theorem sequence_gain {am : Frame S → Fin S} (ham : IsArgmax am) (g : CGraph S) (u : PUtt X S) (h : Usable g u)
    (v v' : Fin (u.utt.1 + 1) → Fin S → ℝ) :
    ∑ t, ∑ s, pathResps (chosen am g v u.path) t s * (v' t s - v t s) ≤ sequenceScore g v' u.path - sequenceScore g v u.path := by
  rw [sum_pathResps' (chosen am g v u.path) fun t s => v' t s - v t s, Finset.sum_sub_distrib]
  obtain ⟨w, path⟩ := u
  cases path with
  | some p => exact le_refl _
  | none =>
    have ht := traversable_of_feasible g w h.2
    have h1 := (C176_viterbi ham g ht).1 v v'
    rw [viterbiDetached_eq, viterbiDetached_eq] at h1
    have e : ∀ v : Fin (w.1 + 1) → Fin S → ℝ, sequenceScore g v none = logPath g v (bestPath am g (asLog v)) := by
      intro v
      rw [sequence_best ham g ht, logPath_eq _ _ _ (best_feasible ham g ht v)]
    show _ ≤ sequenceScore g v' none - sequenceScore g v none
    rw [e, e]
    show ∑ t, v' t (bestPath am g (asLog v) t) - ∑ t, v t (bestPath am g (asLog v) t) ≤ _
    linarith

section
variable (am : Frame S → Fin S) (g : CGraph S) (inner : SetModel X S) (V : inner.State → Prop) (XV : X → Prop)

theorem givenRows_eq (hin : Lawful inner V XV) (st : inner.State) (hv : V st) (a : ℝ) (u : PUtt X S) (hu : ∀ t, XV (u.utt.2 t))
    (h : Usable g u) : givenRows am g inner st a u = .ok (List.ofFn fun t => (u.utt.2 t, fun s => a *
      pathResps (chosen am g (scoresOf inner st a u.utt) u.path) t s)) := by
  unfold givenRows
  rw [hmmLlhs_eq inner V XV hin st hv a u.utt hu, ok_bind, usedPath_ok am g u h]
  rfl

theorem path_step (ham : IsArgmax am) (hin : Lawful inner V XV) (st : inner.State) (hv : V st) (a : ℝ) (ha : 0 ≤ a)
    (utts : List (PUtt X S)) (hu : ∀ u ∈ utts, (∀ t, XV (u.utt.2 t)) ∧ Usable g u) (scale l : ℝ)
    (hs : 0 ≤ scale) (h0 : 0 < l) (h1 : l ≤ 1) :
    ∃ st', pathStep am g inner st a utts scale l = .ok st' ∧ V st' ∧
      pathObjective g inner a utts scale st ≤ pathObjective g inner a utts scale st' := by
  set rowsOf : PUtt X S → List (X × (Fin S → ℝ)) := fun u =>
    List.ofFn fun t => (u.utt.2 t, fun s => a * pathResps (chosen am g (scoresOf inner st a u.utt) u.path) t s) with hrows
  obtain ⟨st', e, v, gn⟩ := hin.step_ok st ((utts.map rowsOf).flatten) scale l hv (by
    intro r h
    obtain ⟨L, hL, hr⟩ := List.mem_flatten.1 h
    obtain ⟨u, hu', rfl⟩ := List.mem_map.1 hL
    rw [hrows, List.mem_ofFn] at hr
    obtain ⟨t, rfl⟩ := hr
    refine ⟨(hu u hu').1 t, fun s => mul_nonneg ha ?_⟩
    unfold pathResps
    split_ifs <;> norm_num) hs h0 h1
  refine ⟨st', ?_, v, ?_⟩
  · unfold pathStep
    rw [mapM_ok_map _ _ utts fun u h => givenRows_eq am g inner V XV hin st hv a u (hu u h).1 (hu u h).2]
    exact e
  · have key : ((utts.map rowsOf).flatten.map fun r =>
          ∑ m, r.2 m * (valueOf 0 (inner.llh st' r.1) m - valueOf 0 (inner.llh st r.1) m)).sum ≤
        (utts.map fun u => sequenceScore g (scoresOf inner st' a u.utt) u.path - sequenceScore g (scoresOf inner st a u.utt) u.path).sum := by
      rw [sum_flatten_map]
      refine sum_map_le utts _ _ fun u h => ?_
      refine le_trans (le_of_eq ?_) (sequence_gain ham g u (hu u h).2 (scoresOf inner st a u.utt) (scoresOf inner st' a u.utt))
      rw [hrows, List.map_ofFn, List.sum_ofFn]
      refine Finset.sum_congr rfl fun t _ => Finset.sum_congr rfl fun s _ => ?_
      unfold scoresOf
      ring
    have key' := mul_le_mul_of_nonneg_left key hs
    rw [sum_map_sub', mul_sub] at key'
    have o : ∀ st, pathObjective g inner a utts scale st =
        scale * (utts.map fun u => sequenceScore g (scoresOf inner st a u.utt) u.path).sum - valueOf 0 (inner.kl st) := fun st => rfl
    rw [o, o]
    linarith

end

end Verif.VB
