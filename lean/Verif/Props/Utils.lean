import Verif.Model.Utils
import Verif.Lemmas.ExceptList
import Mathlib.Data.EReal.Operations
import Mathlib.Tactic.NormNum

/-!
# C62 – C64: utilities
-/

namespace Verif.Props

open Verif.Utils EReal

/-! ## C62 -/

/-- The stabilised computation is the logarithm of the sum of the exponentials, for all values finite,
`-inf` or `inf`. -/
theorem C62_logsumexp {n : ℕ} (t : Fin (n + 1) → EReal) :
    logsumexp t = ENNReal.log (∑ i, EReal.exp (t i)) := by
  unfold logsumexp
  dsimp only
  obtain ⟨j, _, hj⟩ := Finset.exists_mem_eq_sup' (s := (Finset.univ : Finset (Fin (n + 1))))
    Finset.univ_nonempty t
  have hle : ∀ i, t i ≤ Finset.univ.sup' Finset.univ_nonempty t :=
    fun i => Finset.le_sup' t (Finset.mem_univ i)
  generalize Finset.univ.sup' Finset.univ_nonempty t = m at hj hle ⊢
  split_ifs with hm
  · rcases hm with rfl | rfl
    · have : ∀ i, t i = ⊥ := fun i => le_bot_iff.mp (hle i)
      simp [this]
    · have : (∑ i, EReal.exp (t i)) = ⊤ := by
        rw [ENNReal.sum_eq_top]
        exact ⟨j, Finset.mem_univ j, by rw [← hj]; exact EReal.exp_top⟩
      rw [this, ENNReal.log_top]
  · rw [not_or] at hm
    have hlog : m = ENNReal.log (EReal.exp m) := (EReal.log_exp m).symm
    conv_lhs => rw [hlog]
    rw [← ENNReal.log_mul_add, Finset.mul_sum]
    congr 1
    refine Finset.sum_congr rfl (fun i _ => ?_)
    rw [EReal.log_exp, ← EReal.exp_add]
    congr 1
    rw [add_comm]
    lift m to ℝ using ⟨hm.2, hm.1⟩
    exact EReal.sub_add_cancel

/-- All `-inf` gives `-inf`; a finite maximum keeps the result finite. -/
theorem C62_all_neg_inf {n : ℕ} (t : Fin (n + 1) → EReal) : logsumexp t = ⊥ ↔ ∀ i, t i = ⊥ := by
  rw [C62_logsumexp, ENNReal.log_eq_bot_iff, Finset.sum_eq_zero_iff]
  simp

example : logsumexp ![((0 : ℝ) : EReal), ⊥] = 0 := by
  rw [C62_logsumexp]; simp

example : logsumexp ![(⊥ : EReal), ⊥, ⊥] = ⊥ := by
  rw [C62_all_neg_inf]; intro i; fin_cases i <;> rfl

/-! ## C63 -/

/-- Position denoted by a label. -/
def labelPosition (maxLabel : ℕ) (label : ℤ) : ℤ := if 0 ≤ label then label else label + maxLabel

/-- The call succeeds exactly when every label is in `[-max, max)`; otherwise it is an `IndexError`. -/
theorem C63_ok_iff (labels : List ℤ) (m : ℕ) :
    ((∃ out, onehot labels m = .ok out) ↔ ∀ l ∈ labels, -(m : ℤ) ≤ l ∧ l < m) ∧
    ((¬ ∀ l ∈ labels, -(m : ℤ) ≤ l ∧ l < m) → onehot labels m = .error .indexError) := by
  have hok : ∀ l : ℤ, (-(m : ℤ) ≤ l ∧ l < m) → ∃ r, onehotRow m l = .ok r := by
    intro l hl
    unfold onehotRow
    by_cases h0 : 0 ≤ l
    · exact ⟨_, if_pos ⟨h0, hl.2⟩⟩
    · rw [if_neg (fun h => h0 h.1)]
      exact ⟨_, if_pos ⟨hl.1, by omega⟩⟩
  have herr : ∀ l : ℤ, ¬ (-(m : ℤ) ≤ l ∧ l < m) → onehotRow m l = .error .indexError := by
    intro l hl
    unfold onehotRow
    rw [if_neg (by omega), if_neg (by omega)]
  have hbad : (¬ ∀ l ∈ labels, -(m : ℤ) ≤ l ∧ l < m) → onehot labels m = .error .indexError := by
    intro h
    push Not at h
    obtain ⟨l, hl, hb⟩ := h
    refine mapM_error_of _ _ _ (fun l' _ e he => ?_) ⟨l, hl, herr l (by omega)⟩
    by_cases hg : -(m : ℤ) ≤ l' ∧ l' < m
    · obtain ⟨r, hr⟩ := hok l' hg
      rw [hr] at he; cases he
    · rw [herr l' hg] at he
      exact (Except.error.inj he).symm
  refine ⟨⟨fun ⟨out, h⟩ => ?_, fun h => ?_⟩, hbad⟩
  · by_contra hc
    rw [hbad hc] at h; cases h
  · have : ∀ l ∈ labels, onehotRow m l = .ok ((fun l => (match onehotRow m l with
        | .ok r => r | .error _ => [])) l) := by
      intro l hl
      obtain ⟨r, hr⟩ := hok l (h l hl)
      simp only [hr]
    exact ⟨_, mapM_ok_map _ _ _ this⟩

/-- One row per label, of length `max`, with a single one at the position of the label. -/
theorem C63_rows (labels : List ℤ) (m : ℕ) (out : List (List ℕ)) (h : onehot labels m = .ok out) :
    out.length = labels.length ∧
    ∀ (i : ℕ) (l : ℤ), labels[i]? = some l → ∃ row : List ℕ, out[i]? = some row ∧ row.length = m ∧
      ∀ j : ℕ, j < m → row[j]? = some (if (j : ℤ) = labelPosition m l then 1 else 0) := by
  refine ⟨((mapM_ok_iff _ _ _).mp h).length_eq.symm, fun i l hi => ?_⟩
  obtain ⟨row, hrow, hf⟩ := mapM_getElem h hi
  have key : ∀ p : ℕ, p < m → (p : ℤ) = labelPosition m l → row = (List.replicate m 0).set p 1 →
      row.length = m ∧ ∀ j : ℕ, j < m → row[j]? = some (if (j : ℤ) = labelPosition m l then 1 else 0) := by
    rintro p hp hpl rfl
    refine ⟨by simp, fun j hj => ?_⟩
    rw [List.getElem?_set, ← hpl]
    by_cases hpj : p = j
    · subst hpj; simp [hp]
    · rw [if_neg hpj, if_neg (by omega)]
      simp [hj]
  refine ⟨row, hrow, ?_⟩
  unfold onehotRow at hf
  split_ifs at hf with h1 h2
  · exact key l.toNat (by omega) (by unfold labelPosition; rw [if_pos h1.1]; omega)
      (Except.ok.inj hf).symm
  · exact key (l + m).toNat (by omega) (by unfold labelPosition; rw [if_neg (by omega)]; omega)
      (Except.ok.inj hf).symm

example : onehot [2, 0, -1] 3 = .ok [[0, 0, 1], [1, 0, 0], [0, 0, 1]] := by decide
example : onehot [2, 3] 3 = .error .indexError := by decide

/-! ## C64 -/

/-- What the loop over the GPUs does: either the last allocation tried is the successful one, on a GPU
that was not active, and it is the visible device, or all allocations failed. -/
theorem tryGpus_spec (env : GpuEnv) (round : ℕ) : ∀ (gpus : List (ℕ × ℕ)) (s : GpuState),
    ∃ (failed : List ℕ), match tryGpus env true round gpus s with
    | (.ok (some idx), s') => s'.visible = some idx ∧
        s'.attempts = s.attempts ++ failed.map (fun i => (i, false)) ++ [(idx, true)] ∧
        env.alloc (s.attempts.length + failed.length) idx = true ∧
        ∃ uuid, (uuid, idx) ∈ gpus ∧ uuid ∉ env.active round
    | (.ok none, s') => s'.attempts = s.attempts ++ failed.map (fun i => (i, false))
    | (.error _, _) => False := by
  intro gpus
  induction gpus with
  | nil => intro s; exact ⟨[], by simp [tryGpus]⟩
  | cons g gpus ih =>
    intro s
    obtain ⟨uuid, idx⟩ := g
    rw [tryGpus]
    by_cases h1 : uuid ∈ env.active round
    · rw [if_pos h1]
      obtain ⟨f, hf⟩ := ih s
      refine ⟨f, ?_⟩
      generalize tryGpus env true round gpus s = res at hf ⊢
      obtain ⟨r, s'⟩ := res
      rcases r with e | (_ | i)
      · exact hf
      · exact hf
      · obtain ⟨a1, a2, a3, u, a4, a5⟩ := hf
        exact ⟨a1, a2, a3, u, by simp [a4], a5⟩
    · rw [if_neg h1, if_neg (by simp)]
      dsimp only
      cases h3 : env.alloc s.attempts.length idx with
      | true =>
        rw [if_pos rfl]
        exact ⟨[], rfl, by simp, by simpa using h3, uuid, by simp, h1⟩
      | false =>
        rw [if_neg (by simp)]
        obtain ⟨f, hf⟩ := ih ⟨some idx, s.attempts ++ [(idx, false)]⟩
        refine ⟨idx :: f, ?_⟩
        generalize tryGpus env true round gpus ⟨some idx, s.attempts ++ [(idx, false)]⟩ = res at hf ⊢
        obtain ⟨r, s'⟩ := res
        rcases r with e | (_ | i)
        · exact hf
        · dsimp only at hf ⊢
          rw [hf]; simp
        · obtain ⟨a1, a2, a3, u, a4, a5⟩ := hf
          refine ⟨a1, ?_, ?_, u, by simp [a4], a5⟩
          · rw [a2]; simp
          · rw [← a3]
            simp only [List.length_append, List.length_cons, List.length_nil]
            congr 1
            omega

/-- With a logger, `reserve_gpu` either returns the index of a GPU of the list on which the last
allocation succeeded (all earlier ones failed), which was not active at the last query and is the visible
device, within `max_retry` rounds; or raises `NoGPUAvailable` after exactly `max_retry` rounds in which no
allocation succeeded. -/
theorem C64_reserve (env : GpuEnv) (gpus : List (ℕ × ℕ)) (maxRetry : ℕ) (vis : Option ℕ) :
    match reserveGpu env true gpus maxRetry vis with
    | (.ok idx, s, rounds) =>
        s.visible = some idx ∧ 1 ≤ rounds ∧ rounds ≤ maxRetry ∧
        (∃ failed : List ℕ, s.attempts = failed.map (fun i => (i, false)) ++ [(idx, true)] ∧
          env.alloc failed.length idx = true) ∧
        ∃ uuid, (uuid, idx) ∈ gpus ∧ uuid ∉ env.active (rounds - 1)
    | (.error e, s, rounds) =>
        e = .noGPU ∧ rounds = maxRetry ∧ ∀ p ∈ s.attempts, p.2 = false := by
  have key : ∀ (n round : ℕ) (s : GpuState) (before : List ℕ),
      s.attempts = before.map (fun i => (i, false)) →
      match pollGpus env true gpus n round s with
      | (.ok idx, s', rounds) =>
          s'.visible = some idx ∧ round + 1 ≤ rounds ∧ rounds ≤ round + n ∧
          (∃ failed : List ℕ, s'.attempts = failed.map (fun i => (i, false)) ++ [(idx, true)] ∧
            env.alloc failed.length idx = true) ∧
          ∃ uuid, (uuid, idx) ∈ gpus ∧ uuid ∉ env.active (rounds - 1)
      | (.error e, s', rounds) =>
          e = .noGPU ∧ rounds = round + n ∧ ∀ p ∈ s'.attempts, p.2 = false := by
    intro n
    induction n with
    | zero =>
      intro round s before hs
      refine ⟨rfl, rfl, fun p hp => ?_⟩
      rw [hs] at hp
      obtain ⟨i, _, rfl⟩ := List.mem_map.mp hp
      rfl
    | succ n ih =>
      intro round s before hs
      rw [pollGpus]
      obtain ⟨f, hf⟩ := tryGpus_spec env round gpus s
      generalize tryGpus env true round gpus s = res at hf ⊢
      obtain ⟨r, s'⟩ := res
      rcases r with e | (_ | idx)
      · exact hf.elim
      · dsimp only at hf ⊢
        rw [if_neg (by simp)]
        have := ih (round + 1) s' (before ++ f) (by rw [hf, hs]; simp)
        generalize pollGpus env true gpus n (round + 1) s' = res at this ⊢
        obtain ⟨r, s'', k⟩ := res
        rcases r with e | idx
        · exact ⟨this.1, by have := this.2.1; omega, this.2.2⟩
        · obtain ⟨a1, a2, a3, a4, a5⟩ := this
          exact ⟨a1, by omega, by omega, a4, a5⟩
      · obtain ⟨a1, a2, a3, a4⟩ := hf
        refine ⟨a1, le_rfl, by omega, ⟨before ++ f, ?_, ?_⟩, by simpa using a4⟩
        · rw [a2, hs]; simp
        · rw [hs] at a3; simpa using a3
  have := key maxRetry 0 ⟨vis, []⟩ [] rfl
  unfold reserveGpu
  simpa using this

/-- GPU 11 is active, the first allocation on GPU 5 fails, it is reserved in the second round. -/
def demoEnv : GpuEnv := ⟨fun _ => [11], fun n _ => decide (1 ≤ n)⟩

example : reserveGpu demoEnv true [(10, 5), (11, 6)] 3 none
    = (.ok 5, ⟨some 5, [(5, false), (5, true)]⟩, 2) := by rfl

example : reserveGpu demoEnv true [(11, 6)] 3 none = (.error .noGPU, ⟨none, []⟩, 3) := by rfl

/-- The default `logger=None` never works: any call with at least one round fails with an
`AttributeError`. -/
theorem C64_default_logger_fails (env : GpuEnv) (gpus : List (ℕ × ℕ)) (n : ℕ) (vis : Option ℕ) :
    reserveGpu env false gpus (n + 1) vis = (.error .attributeError, ⟨vis, []⟩, 1) := by
  have key : ∀ (gpus : List (ℕ × ℕ)) (s : GpuState),
      tryGpus env false 0 gpus s = (.ok none, s) ∨ tryGpus env false 0 gpus s = (.error .attributeError, s) := by
    intro gpus
    induction gpus with
    | nil => intro s; exact Or.inl rfl
    | cons g gpus ih =>
      intro s
      rw [tryGpus]
      split_ifs with h1
      · exact ih s
      · exact Or.inr rfl
      · exact absurd rfl ‹¬ false = false›
  rw [reserveGpu, pollGpus]
  rcases key gpus ⟨vis, []⟩ with h | h
  · rw [h]; rfl
  · rw [h]

end Verif.Props
