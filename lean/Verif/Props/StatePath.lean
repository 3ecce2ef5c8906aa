import Verif.Model.PhoneLoop
import Verif.Lemmas.ExceptList
import Verif.Props.HMM
import Mathlib.Tactic

/-!
# C15 : evaluating an HMM along a given (or Viterbi) path
-/

namespace Verif.Props

open Verif Verif.PhoneLoop Verif.Utils Verif.ModelSet Verif.Spec

variable {R : Type} [Field R]

/-- Indicator of state `s` among `n`. -/
def indicatorRow (n s : ℕ) : List ℕ := (List.range n).map fun j => if j = s then 1 else 0

/-- The transitions of a path, with the index of the frame they start from. -/
def pathTransitions (path : List ℕ) : List (ℕ × ℕ × ℕ) :=
  (path.zip path.tail).zipIdx.map fun x => (x.2, x.1.1, x.1.2)

lemma onehotRow_nat (n s : ℕ) (h : s < n) : onehotRow n (s : ℤ) = .ok (indicatorRow n s) := by
  unfold onehotRow indicatorRow
  rw [if_pos ⟨by omega, by omega⟩]
  congr 1
  apply List.ext_getElem (by simp)
  intro i h1 h2
  simp only [List.getElem_set, List.getElem_replicate, List.getElem_map, List.getElem_range,
    Int.toNat_natCast]
  by_cases hi : s = i
  · simp [hi]
  · simp [hi, Ne.symm hi]

lemma onehot_nat (n : ℕ) (path : List ℕ) (h : ∀ s ∈ path, s < n) :
    onehot (path.map (fun k : ℕ => (k : ℤ))) n = .ok (path.map (indicatorRow n)) := by
  unfold onehot
  rw [mapM_ok_iff, List.forall₂_map_left_iff, List.forall₂_map_right_iff]
  exact List.forall₂_same.mpr fun s hs => onehotRow_nat n s (h s hs)

lemma normIdx_nat (n s : ℕ) : normIdx n (s : ℤ) = if s < n then some s else none := by
  unfold normIdx
  rw [if_pos (by omega)]
  by_cases h : s < n
  · rw [if_pos (by omega), if_pos h]; simp
  · rw [if_neg (by omega), if_neg h]

lemma transEntries_nat (m n : ℕ) : ∀ (l : List (ℕ × ℕ)) (i : ℕ), i + l.length ≤ m →
    (∀ x ∈ l, x.1 < n ∧ x.2 < n) →
    transEntries m n i (l.map fun x => ((x.1 : ℤ), (x.2 : ℤ)))
      = .ok ((l.zipIdx i).map fun x => (x.2, x.1.1, x.1.2)) := by
  intro l
  induction l with
  | nil => intro i _ _; rfl
  | cons x l ih =>
    intro i hi hx
    obtain ⟨h1, h2⟩ := hx x List.mem_cons_self
    rw [List.map_cons, transEntries, if_pos (by simp at hi; omega), normIdx_nat, normIdx_nat,
      if_pos h1, if_pos h2]
    simp only []
    rw [ih (i + 1) (by simp at hi; omega) (fun y hy => hx y (List.mem_cons_of_mem _ hy))]
    simp [List.zipIdx_cons]

lemma getInt_nat {α : Type} (l : List α) (s : ℕ) :
    getInt l (s : ℤ) = match l[s]? with | some a => .ok a | none => .error .indexError := by
  unfold getInt
  rw [normIdx_nat]
  by_cases h : s < l.length
  · rw [if_pos h]; rfl
  · rw [if_neg h, List.getElem?_eq_none (by omega)]

lemma dot_indicator (n : ℕ) : ∀ (a : List R) (s : ℕ), a.length = n →
    (List.zipWith (fun x (k : ℕ) => x * (k : R)) a (indicatorRow n s)).sum = a.getD s 0 := by
  intro a
  induction a generalizing n with
  | nil => intro s h; simp
  | cons x a ih =>
    intro s h
    obtain ⟨m, rfl⟩ : ∃ m, n = m + 1 := ⟨a.length, by simpa using h.symm⟩
    have hm : a.length = m := by simpa using h
    unfold indicatorRow
    rw [List.range_succ_eq_map, List.map_cons, List.zipWith_cons_cons, List.sum_cons, List.map_map]
    cases s with
    | zero =>
      have : ((fun j => if j = 0 then 1 else 0) ∘ Nat.succ : ℕ → ℕ) = fun _ => 0 := by
        funext j; simp
      rw [this]
      have h0 : ∀ (l : List R) (k : List ℕ), (∀ y ∈ k, y = 0) →
          (List.zipWith (fun x (k : ℕ) => x * (k : R)) l k).sum = 0 := by
        intro l
        induction l with
        | nil => simp
        | cons y l ihl =>
          intro k hk
          cases k with
          | nil => simp
          | cons z k =>
            rw [List.zipWith_cons_cons, List.sum_cons, ihl k fun w hw => hk w (by simp [hw]),
              hk z (by simp)]
            simp
      rw [h0 a _ (by simp)]
      simp
    | succ s =>
      have : ((fun j => if j = s + 1 then 1 else 0) ∘ Nat.succ : ℕ → ℕ)
          = fun j => if j = s then 1 else 0 := by
        funext j; simp
      rw [this]
      have := ih m s hm
      unfold indicatorRow at this
      rw [this]
      simp

/-- **C15 (when it works).** For a path of valid states, one per frame, the evaluation succeeds if
and only if every state number of the path is also smaller than the number of frames; otherwise it
raises `IndexError`. -/
theorem C15_success_iff (n : ℕ) (pc : List (List R)) (path : List ℕ) (tp : Bool)
    (hT : 0 < pc.length) (hlen : path.length = pc.length) (hpath : ∀ s ∈ path, s < n) :
    ((∃ out, evalPath n pc (path.map (fun k : ℕ => (k : ℤ))) tp = .ok out) ↔ ∀ s ∈ path, s < pc.length) ∧
    ((¬ ∀ s ∈ path, s < pc.length) → evalPath n pc (path.map (fun k : ℕ => (k : ℤ))) tp = .error .indexError) := by
  have htr : transEntries (pc.length - 1) n 0
      ((path.map (fun k : ℕ => (k : ℤ))).zip (path.map (fun k : ℕ => (k : ℤ))).tail) = .ok (pathTransitions path) := by
    have e : (path.map (fun k : ℕ => (k : ℤ))).zip (path.map (fun k : ℕ => (k : ℤ))).tail
        = (path.zip path.tail).map fun x => ((x.1 : ℤ), (x.2 : ℤ)) := by
      rw [← List.map_tail, List.zip_map]
      rfl
    rw [e, transEntries_nat]
    · rfl
    · simp; omega
    · intro x hx
      have := List.of_mem_zip (show (x.1, x.2) ∈ _ from hx)
      exact ⟨hpath _ this.1, hpath _ (List.mem_of_mem_tail this.2)⟩
  have hmain : evalPath n pc (path.map (fun k : ℕ => (k : ℤ))) tp =
      match (path.map (fun k : ℕ => (k : ℤ))).mapM (getInt pc) with
      | .error e => .error e
      | .ok _ => .ok ⟨path.map (indicatorRow n), if tp then some (pathTransitions path) else none,
          List.zipWith (fun a b => (List.zipWith (fun x (k : ℕ) => x * (k : R)) a b).sum) pc
            (path.map (indicatorRow n))⟩ := by
    unfold evalPath
    rw [onehot_nat n path hpath]
    dsimp only
    have hw : weightRows pc (path.map (indicatorRow n)) = .ok (List.zipWith
        (fun a b => (List.zipWith (fun x (k : ℕ) => x * (k : R)) a b).sum) pc
            (path.map (indicatorRow n))) := by
      unfold weightRows
      rw [if_pos (by simp [hlen])]
    have hT' : pc.length ≠ 0 := by omega
    generalize (path.map (fun k : ℕ => (k : ℤ))).mapM (getInt pc) = y
    cases tp
    · simp only [Bool.false_eq_true, if_false, hw]
      rcases y <;> rfl
    · simp only [if_true, hT', if_false, htr, hw]
      rcases y <;> rfl
  by_cases hall : ∀ s ∈ path, s < pc.length
  · refine ⟨⟨fun _ => hall, fun _ => ?_⟩, fun h => absurd hall h⟩
    have : ∀ s ∈ path.map (fun k : ℕ => (k : ℤ)), getInt pc s = .ok ((fun s : ℤ => pc.getD s.toNat []) s) := by
      intro s hs
      rw [List.mem_map] at hs
      obtain ⟨s, hs, rfl⟩ := hs
      rw [getInt_nat, List.getElem?_eq_getElem (hall s hs)]
      simp [hall s hs]
    rw [hmain, mapM_ok_map _ _ _ this]
    exact ⟨_, rfl⟩
  · have herr : (path.map (fun k : ℕ => (k : ℤ))).mapM (getInt pc) = .error .indexError := by
      push Not at hall
      obtain ⟨s, hs, hb⟩ := hall
      refine mapM_error_of _ _ _ (fun s' hs' e he => ?_) ⟨(s : ℤ), List.mem_map_of_mem hs, ?_⟩
      · rw [List.mem_map] at hs'
        obtain ⟨t, _, rfl⟩ := hs'
        rw [getInt_nat] at he
        cases h : pc[t]? with
        | none => rw [h] at he; exact (Except.error.inj he).symm
        | some a => rw [h] at he; cases he
      · rw [getInt_nat, List.getElem?_eq_none hb]
    have h : evalPath n pc (path.map (fun k : ℕ => (k : ℤ))) tp = .error .indexError := by rw [hmain, herr]
    refine ⟨⟨fun ⟨out, ho⟩ => ?_, fun h' => absurd h' hall⟩, fun _ => h⟩
    rw [h] at ho; cases ho

/-- **C15 (result when it works).** The responsibilities are the indicator of the path, the
transition table is the indicator of its transitions, and the value of a frame is the log-likelihood
of the state of the path. -/
theorem C15_result_partial (n : ℕ) (pc : List (List R)) (path : List ℕ) (tp : Bool)
    (hrows : ∀ row ∈ pc, row.length = n)
    (hT : 0 < pc.length) (hlen : path.length = pc.length) (hpath : ∀ s ∈ path, s < n)
    (hall : ∀ s ∈ path, s < pc.length) :
    evalPath n pc (path.map (fun k : ℕ => (k : ℤ))) tp = .ok ⟨path.map (indicatorRow n),
      if tp then some (pathTransitions path) else none,
      List.zipWith (fun row s => row.getD s 0) pc path⟩ := by
  have htr : transEntries (pc.length - 1) n 0
      ((path.map (fun k : ℕ => (k : ℤ))).zip (path.map (fun k : ℕ => (k : ℤ))).tail) = .ok (pathTransitions path) := by
    have e : (path.map (fun k : ℕ => (k : ℤ))).zip (path.map (fun k : ℕ => (k : ℤ))).tail
        = (path.zip path.tail).map fun x => ((x.1 : ℤ), (x.2 : ℤ)) := by
      rw [← List.map_tail, List.zip_map]
      rfl
    rw [e, transEntries_nat]
    · rfl
    · simp; omega
    · intro x hx
      have := List.of_mem_zip (show (x.1, x.2) ∈ _ from hx)
      exact ⟨hpath _ this.1, hpath _ (List.mem_of_mem_tail this.2)⟩
  have hget : ∀ s ∈ path.map (fun k : ℕ => (k : ℤ)),
      getInt pc s = .ok ((fun s : ℤ => pc.getD s.toNat []) s) := by
    intro s hs
    rw [List.mem_map] at hs
    obtain ⟨s, hs, rfl⟩ := hs
    rw [getInt_nat, List.getElem?_eq_getElem (hall s hs)]
    simp [hall s hs]
  have hw : weightRows pc (path.map (indicatorRow n)) =
      .ok (List.zipWith (fun row s => row.getD s 0) pc path) := by
    unfold weightRows
    rw [if_pos (by simp [hlen])]
    congr 1
    rw [List.zipWith_map_right]
    clear hget htr hall hpath hlen hT
    induction pc generalizing path with
    | nil => simp
    | cons row pc ih =>
      cases path with
      | nil => simp
      | cons s path =>
        rw [List.zipWith_cons_cons, List.zipWith_cons_cons,
          ih path (fun r hr => hrows r (List.mem_cons_of_mem _ hr)),
          dot_indicator n row s (hrows row List.mem_cons_self)]
  unfold evalPath
  rw [onehot_nat n path hpath]
  dsimp only
  have hT' : pc.length ≠ 0 := by omega
  rw [mapM_ok_map _ _ _ hget]
  cases tp
  · simp only [Bool.false_eq_true, if_false, hw]
  · simp only [if_true, hT', if_false, htr, hw]

/-- **C15 (wrong length).** A path of valid states whose length is not the number of frames never
gives a result, when both are at least two. -/
theorem C15_wrong_length_raises (n : ℕ) (pc : List (List R)) (path : List ℕ) (tp : Bool)
    (hpath : ∀ s ∈ path, s < n) (hlen : path.length ≠ pc.length) (h1 : 2 ≤ path.length)
    (h2 : 2 ≤ pc.length) :
    ∃ e, evalPath n pc (path.map (fun k : ℕ => (k : ℤ))) tp = .error e := by
  have hw : weightRows pc (path.map (indicatorRow n)) = .error .runtimeError := by
    unfold weightRows
    dsimp only
    rw [if_neg (by simpa using hlen.symm)]
    match pc, path, h1, h2 with
    | _ :: _ :: _, _ :: _ :: _, _, _ => rfl
  unfold evalPath
  rw [onehot_nat n path hpath]
  dsimp only
  rw [hw]
  split
  · exact ⟨_, rfl⟩
  · split
    · exact ⟨_, rfl⟩
    · exact ⟨_, rfl⟩

/-- **C15 (wrong length).** A path of a single state is accepted for any number of frames: the state
is used for every frame, and the responsibilities have one row only. -/
theorem C15_single_state_broadcasts (n : ℕ) (pc : List (List R)) (s : ℕ)
    (hrows : ∀ row ∈ pc, row.length = n) (hs : s < n) (hT : s < pc.length) :
    evalPath n pc [(s : ℤ)] false = .ok ⟨[indicatorRow n s], none, pc.map fun row => row.getD s 0⟩ := by
  have hw : weightRows pc [indicatorRow n s] = .ok (pc.map fun row => row.getD s 0) := by
    unfold weightRows
    dsimp only
    have hmap : pc.map (fun a => (List.zipWith (fun x (k : ℕ) => x * (k : R)) a
        (indicatorRow n s)).sum) = pc.map fun row => row.getD s 0 :=
      List.map_congr_left fun row hr => dot_indicator n row s (hrows row hr)
    rw [← hmap]
    match pc, hT with
    | [a], _ => rfl
    | _ :: _ :: _, _ => rfl
  have ho := onehot_nat n [s] (by simpa using hs)
  simp only [List.map_cons, List.map_nil] at ho
  unfold evalPath
  rw [ho]
  have hg : [(s : ℤ)].mapM (getInt pc) = .ok [pc.getD s []] := by
    have := mapM_ok_map (getInt pc) (fun _ => pc.getD s []) [(s : ℤ)] (by
      intro x hx
      rw [List.mem_singleton] at hx
      rw [hx, getInt_nat, List.getElem?_eq_getElem hT]
      simp [hT])
    simpa using this
  simp only [Bool.false_eq_true, if_false, hg, hw]

-- a path of two states for three frames raises, a path of one state does not
example : (∃ e, evalPath 2 ([[-1, -2], [-3, -4], [-5, -6]] : List (List ℚ))
      ([0, 1].map (fun k : ℕ => (k : ℤ))) false = .error e) ∧
    evalPath 2 ([[-1, -2], [-3, -4], [-5, -6]] : List (List ℚ)) [((1 : ℕ) : ℤ)] false
      = .ok ⟨[[0, 1]], none, [-2, -4, -6]⟩ :=
  ⟨C15_wrong_length_raises 2 _ [0, 1] false (by decide) (by decide) (by decide) (by decide),
    C15_single_state_broadcasts 2 _ 1 (by decide +kernel) (by decide) (by decide)⟩

/-- **C15 fails.** Three states, two frames, the path `0, 2` made of valid states, one per frame:
`IndexError`. -/
theorem C15_fails : ∃ (n : ℕ) (pc : List (List ℚ)) (path : List ℕ),
    (∀ row ∈ pc, row.length = n) ∧ path.length = pc.length ∧ 0 < pc.length ∧
    (∀ s ∈ path, s < n) ∧ ∀ tp, evalPath n pc (path.map (fun k : ℕ => (k : ℤ))) tp = .error .indexError :=
  ⟨3, [[-1, -2, -3], [-2, -3, -1]], [0, 2], by decide +kernel, by decide, by decide, by decide,
    fun tp => (C15_success_iff 3 [[-1, -2, -3], [-2, -3, -1]] [0, 2] tp (by decide) (by decide)
      (by decide)).2 (by decide)⟩

/-- **C15 fails with the Viterbi path too**: on an utterance of `T` frames the evaluation along the
best path raises `IndexError` as soon as the best path visits a state number `≥ T`. -/
theorem C15_viterbi_fails {K T : ℕ} (am : Frame K → Fin K) (g : CGraph K)
    (llhs : Fin (T + 1) → Frame K) (pc : List (List R)) (hpc : pc.length = T + 1) (tp : Bool)
    (t : Fin (T + 1)) (ht : T + 1 ≤ (bestPath am g llhs t).val) :
    ∃ path, bestPathPy am g (T + 1) llhs = .ok path ∧
      evalPath K pc ((path.map Fin.val).map (fun k : ℕ => (k : ℤ))) tp = .error .indexError := by
  refine ⟨_, rfl, ?_⟩
  apply (C15_success_iff K pc _ tp (by omega) (by simp [hpc]) ?_).2
  · intro h
    have := h (bestPath am g llhs t).val
      (List.mem_map_of_mem ((List.mem_ofFn' _ _).2 ⟨t, rfl⟩))
    omega
  · intro s hs
    simp only [List.mem_map] at hs
    obtain ⟨a, _, rfl⟩ := hs
    exact a.isLt

-- the last state of a three-state graph is the only possible start: one frame is enough to fail
example : ∃ g : CGraph 3, ∃ llhs : Fin 1 → Frame 3, ∀ am, IsArgmax am →
    1 ≤ (bestPath am g llhs 0).val := by
  refine ⟨⟨fun s => if s = 2 then 0 else ⊥, fun _ => 0, fun _ _ => 0⟩, fun _ _ => 0, fun am ham => ?_⟩
  have h := (C14_best_path_feasible ham ⟨fun s => if s = 2 then 0 else ⊥, fun _ => 0, fun _ _ => 0⟩
    (fun _ _ => 0 : Fin 1 → Frame 3) ?_).1
  · by_contra hc
    apply h
    have : ¬ (bestPath am ⟨fun s => if s = 2 then 0 else ⊥, fun _ => 0, fun _ _ => 0⟩
      (fun _ _ => 0 : Fin 1 → Frame 3) 0 = 2) := by
      intro e; rw [e] at hc; simp at hc
    simp only [if_neg this]
  · refine (evidence_pos_iff _ _).2 ⟨fun _ => 2, ?_⟩
    simp [pathScore]

-- two states, three frames: the path 0, 1, 1 is evaluated
example : evalPath 2 ([[-1, -2], [-3, -4], [-5, -6]] : List (List ℚ)) ([0, 1, 1].map (fun k : ℕ => (k : ℤ))) true
    = .ok ⟨[[1, 0], [0, 1], [0, 1]], some [(0, 0, 1), (1, 1, 1)], [-1, -4, -6]⟩ :=
  C15_result_partial 2 _ [0, 1, 1] true (by decide +kernel) (by decide) (by decide) (by decide)
    (by decide)

end Verif.Props
