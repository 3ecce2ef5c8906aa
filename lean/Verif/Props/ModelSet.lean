import Verif.Spec.ModelSet
import Verif.Lemmas.ExceptList
import Mathlib.Tactic.Ring
import Mathlib.Tactic.Linarith
import Mathlib.Data.List.Basic
import Mathlib.Data.List.GetD
import Mathlib.Data.List.Perm.Basic
import Mathlib.Algebra.BigOperators.Ring.List
import Mathlib.Algebra.BigOperators.Group.Finset.Basic

/-!
# C46 - C49, C78, C79: joint, re-ordered and repeated model sets, mean-field groups
-/

namespace Verif.Props

open Verif.ModelSet

/-! ## C46: joint model sets -/

/-- C46: the length is the sum of the lengths. -/
theorem C46_length {α : Type*} (ms : List (List α)) : jointLen ms = ms.flatten.length := by
  have h : ∀ (ms : List (List α)) (n : ℕ), ms.foldl (fun len m => len + m.length) n =
      n + ms.flatten.length := by
    intro ms
    induction ms with
    | nil => simp
    | cons m ms ih => intro n; simp [ih]; omega
  simpa [jointLen] using h ms 0

example : jointLen [[1, 2], [], [3]] = 3 := by decide

theorem getInt_ofNat {α : Type*} (l : List α) (i : ℕ) :
    getInt l (i : ℤ) = match l[i]? with | some a => .ok a | none => .error .indexError := by
  unfold getInt normIdx
  rw [if_pos (by omega)]
  by_cases h : i < l.length
  · rw [if_pos (by omega)]
    simp only [Int.toNat_natCast]
    rfl
  · rw [if_neg (by omega), List.getElem?_eq_none (by omega)]

/-- C46: the element at a non-negative index is that of the concatenation, `IndexError` past the end;
negative indices raise `ValueError`. -/
theorem C46_getitem {α : Type*} (ms : List (List α)) (key : ℤ) :
    jointGet ms key = if key < 0 then .error .valueError
      else match ms.flatten[key.toNat]? with | some a => .ok a | none => .error .indexError := by
  have h : ∀ (ms : List (List α)) (n total : ℕ), total ≤ n → jointGetLoop (n : ℤ) ms (total : ℤ) =
      match ms.flatten[n - total]? with | some a => .ok a | none => .error .indexError := by
    intro ms
    induction ms with
    | nil => intro n total _; simp [jointGetLoop]
    | cons m ms ih =>
      intro n total hle
      unfold jointGetLoop
      rw [List.flatten_cons]
      by_cases hlt : (n : ℤ) < total + m.length
      · rw [if_pos hlt, show (n : ℤ) - total = ((n - total : ℕ) : ℤ) by omega, getInt_ofNat,
          List.getElem?_append_left (by omega)]
      · rw [if_neg hlt, show (total : ℤ) + m.length = ((total + m.length : ℕ) : ℤ) by push_cast; rfl,
          ih n (total + m.length) (by omega), List.getElem?_append_right (by omega),
          Nat.sub_sub]
  unfold jointGet
  by_cases hk : key < 0
  · rw [if_pos hk, if_pos hk]
  · rw [if_neg hk, if_neg hk]
    have := h ms key.toNat 0 (Nat.zero_le _)
    rw [Int.toNat_of_nonneg (by omega)] at this
    simpa using this

example : jointGet [["a", "b"], [], ["c"]] 2 = .ok "c" ∧ jointGet [["a", "b"], ["c"]] 3 =
    .error .indexError ∧ jointGet [["a", "b"], ["c"]] (-1) = .error .valueError := by decide +kernel

theorem jointSplit_spec {R : Type*} (row : List R) (lens : List ℕ) (start : ℕ)
    (h : row.length = start + lens.sum) :
    (jointSplit row lens start).flatten = row.drop start ∧
    (jointSplit row lens start).map List.length = lens := by
  induction lens generalizing start with
  | nil =>
    simp only [List.sum_nil, add_zero] at h
    simp [jointSplit, h]
  | cons len lens ih =>
    simp only [List.sum_cons] at h
    obtain ⟨h1, h2⟩ := ih (start + len) (by omega)
    refine ⟨?_, ?_⟩
    · rw [jointSplit, List.flatten_cons, h1]
      conv_rhs => rw [← List.take_append_drop (start + len) row]
      rw [List.drop_append_of_le_length (by rw [List.length_take]; omega)]
    · rw [jointSplit, List.map_cons, h2, List.length_drop, List.length_take]
      congr 1
      omega

/-- C46: the responsibilities are cut into the columns of the members: put together they are the whole
row and each piece has the length of its member. -/
theorem C46_columns {R : Type*} (row : List R) (lens : List ℕ) (h : row.length = lens.sum) :
    (jointSplit row lens 0).flatten = row ∧ (jointSplit row lens 0).map List.length = lens := by
  simpa using jointSplit_spec row lens 0 (by simpa using h)

example : jointSplit [1, 2, 3] [2, 0, 1] 0 = [[1, 2], [], [3]] := by decide

/-- C46: what member `j` contributes is computed from its own columns only, and is in the result
provided no later member has the same parameter. -/
theorem C46_accumulate {R κ σ : Type*} [DecidableEq κ] (resps : List (List R))
    (pre post : List (ℕ × (List (List R) → κ → Option σ))) (len : ℕ)
    (accumulate : List (List R) → κ → Option σ) (k : κ) (v : σ)
    (hv : accumulate (resps.map fun row => (row.drop (pre.map Prod.fst).sum).take len) k = some v)
    (hpost : ∀ m ∈ post, ∀ r, m.2 r k = none) :
    jointAccumulate resps (pre ++ (len, accumulate) :: post) 0 (fun _ => none) k = some v := by
  have hafter : ∀ (ms : List (ℕ × (List (List R) → κ → Option σ))) (start : ℕ) (acc : κ → Option σ),
      (∀ m ∈ ms, ∀ r, m.2 r k = none) → jointAccumulate resps ms start acc k = acc k := by
    intro ms
    induction ms with
    | nil => intros; rfl
    | cons m ms ih =>
      intro start acc hm
      obtain ⟨l, a⟩ := m
      rw [jointAccumulate, ih _ _ (fun m hm' => hm m (List.mem_cons_of_mem _ hm'))]
      unfold dictUpdate
      have := hm (l, a) (by simp)
      simp only at this
      rw [this]
  have hmain : ∀ (pre : List (ℕ × (List (List R) → κ → Option σ))) (start : ℕ)
      (acc : κ → Option σ),
      accumulate (resps.map fun row => (row.drop (start + (pre.map Prod.fst).sum)).take len) k
        = some v →
      jointAccumulate resps (pre ++ (len, accumulate) :: post) start acc k = some v := by
    intro pre
    induction pre with
    | nil =>
      intro start acc hv
      rw [List.nil_append, jointAccumulate, hafter _ _ _ hpost]
      unfold dictUpdate
      have e : (fun row : List R => (row.take (start + len)).drop start) =
          fun row => (row.drop (start + (List.map Prod.fst
            ([] : List (ℕ × (List (List R) → κ → Option σ)))).sum)).take len := by
        funext row
        rw [List.drop_take]
        simp
      rw [e, hv]
    | cons m pre ih =>
      intro start acc hv
      obtain ⟨l, a⟩ := m
      rw [List.cons_append, jointAccumulate]
      apply ih
      rw [← hv, List.map_cons, List.sum_cons]
      simp only [add_assoc]
  apply hmain
  simpa using hv

example : jointAccumulate [[1, 2, 3]] [(2, fun r k => if k = "a" then some r else none),
    (1, fun r k => if k = "b" then some r else none)] 0 (fun _ => none) "b" = some [[3]] := by
  decide +kernel

/-- C46: hence for every parameter that only one member has, training statistics are the same as if the
member were trained alone on its columns; the expected log-likelihood under the responsibilities is the
sum of those of the members. -/
theorem C46_expected_llh {R : Type*} [Semiring R] (row : List R) (rows : List (List R))
    (h : row.length = rows.flatten.length) :
    rowDot row (jointRow rows) =
      (List.zipWith rowDot (jointSplit row (rows.map List.length) 0) rows).sum := by
  have key : ∀ (rows : List (List R)) (start : ℕ), row.length = start + rows.flatten.length →
      rowDot (row.drop start) rows.flatten =
        (List.zipWith rowDot (jointSplit row (rows.map List.length) start) rows).sum := by
    intro rows
    induction rows with
    | nil => intro start _; simp [rowDot, jointSplit]
    | cons r rows ih =>
      intro start hl
      rw [List.flatten_cons, List.length_append] at hl
      rw [List.map_cons, jointSplit, List.zipWith_cons_cons, List.sum_cons,
        ← ih (start + r.length) (by omega), List.flatten_cons]
      have e : row.drop start = (row.take (start + r.length)).drop start ++
          row.drop (start + r.length) := by
        conv_lhs => rw [← List.take_append_drop (start + r.length) row]
        rw [List.drop_append_of_le_length (by rw [List.length_take]; omega)]
      rw [e]
      unfold rowDot
      rw [List.zipWith_append, List.sum_append]
      rw [List.length_drop, List.length_take]
      omega
  simpa [jointRow] using key rows 0 (by simpa using h)

example : rowDot [1, 2, 3] (jointRow [[4, 5], [6]]) = 32 := by decide

/-- C78, negation: when two members share a parameter, the statistics of the first are lost. -/
theorem C78_shared_parameter_negation :
    ∃ (resps : List (List ℚ)) (acc : List (List ℚ) → String → Option ℚ),
      acc [[1, 2]] "p" = some 3 ∧ acc [[4]] "p" = some 4 ∧ resps = [[1, 2, 4]] ∧
      jointAccumulate resps [(2, acc), (1, acc)] 0 (fun _ => none) "p" = some 4 := by
  refine ⟨[[1, 2, 4]], fun r k => if k = "p" then some (r.flatten.sum) else none, ?_⟩
  decide +kernel

/-- C78 (partial): a parameter occurring in several members receives the statistics of the last one
only. -/
theorem C78_last_member_wins_partial {R κ σ : Type*} [DecidableEq κ] (resps : List (List R))
    (pre : List (ℕ × (List (List R) → κ → Option σ))) (len : ℕ)
    (accumulate : List (List R) → κ → Option σ) (k : κ) (v : σ)
    (hv : accumulate (resps.map fun row => (row.drop (pre.map Prod.fst).sum).take len) k = some v) :
    jointAccumulate resps (pre ++ [(len, accumulate)]) 0 (fun _ => none) k = some v :=
  C46_accumulate resps pre [] len accumulate k v hv (by simp)

example : jointAccumulate [[1, 2, 3]] [(2, fun r k => if k = "a" then some r else none),
    (1, fun r k => if k = "a" then some r else none)] 0 (fun _ => none) "a" = some [[3]] := by
  decide +kernel

/-! ## C47: dynamically ordered model sets -/

theorem normIdx_lt {n : ℕ} {i : ℤ} {k : ℕ} (h : normIdx n i = some k) : k < n := by
  unfold normIdx at h
  split_ifs at h <;> simp only [Option.some.injEq] at h <;> omega

section Ordered

variable {R : Type} [Semiring R]

theorem addAt_ok {row : List R} {k : ℤ} {val : R} {out : List R} (h : addAt row k val = .ok out) :
    ∃ j, normIdx row.length k = some j ∧ j < row.length ∧ out.length = row.length ∧
      ∀ i, out.getD i 0 = row.getD i 0 + if j = i then val else 0 := by
  unfold addAt at h
  rcases hn : normIdx row.length k with _ | j
  · rw [hn] at h; cases h
  · rw [hn] at h
    obtain rfl := Except.ok.inj h
    have hj := normIdx_lt hn
    refine ⟨j, rfl, hj, by simp, ?_⟩
    intro i
    rw [List.getD_eq_getElem?_getD, List.getD_eq_getElem?_getD, List.getElem?_modify]
    by_cases hij : j = i
    · subst hij
      simp [List.getElem?_eq_getElem hj]
    · simp [hij]

theorem scatterLoop_ok (resps : List R) (order : List ℤ) (new out : List R)
    (h : scatterLoop resps order new = .ok out) :
    out.length = new.length ∧ resps.length ≤ order.length ∧
    (∀ i, out.getD i 0 = new.getD i 0 + pointedMass new.length order resps i) ∧
    out.sum = new.sum + resps.sum := by
  induction resps generalizing order new with
  | nil =>
    unfold scatterLoop at h
    obtain rfl := Except.ok.inj h
    simp [pointedMass]
  | cons val resps ih =>
    cases order with
    | nil => simp [scatterLoop] at h
    | cons k order =>
      unfold scatterLoop at h
      rcases ha : addAt new k val with e | new'
      · rw [ha] at h; cases h
      · rw [ha] at h
        obtain ⟨j, hj, hjlt, hlen, hget⟩ := addAt_ok ha
        obtain ⟨h1, h2, h3, h4⟩ := ih order new' h
        refine ⟨by omega, by simpa using h2, ?_, ?_⟩
        · intro i
          rw [h3 i, hget i, hlen]
          unfold pointedMass
          rw [List.zip_cons_cons, List.filter_cons]
          by_cases hij : j = i
          · subst hij
            simp [hj, add_assoc]
          · have : ¬ (normIdx new.length k = some i) := by
              rw [hj]; simpa using hij
            simp [this, hij]
        · rw [h4, List.sum_cons, ← add_assoc]
          congr 1
          have e : new' = new.modify j (· + val) := by
            unfold addAt at ha
            rw [hj] at ha
            exact (Except.ok.inj ha).symm
          rw [e]
          clear * - hjlt
          induction new generalizing j with
          | nil => simp at hjlt
          | cons a new ih =>
            cases j with
            | zero => simp [add_assoc, add_comm]
            | succ j =>
              rw [List.modify_succ_cons, List.sum_cons, List.sum_cons,
                ih j (by simpa using hjlt), add_assoc]

/-- C47: after the scattering the responsibility of an original component is the sum over the
positions pointing to it. -/
theorem C47_scatter (order : List ℤ) (n : ℕ) (resps out : List R)
    (h : orderedAccumulate (some order) n resps = .ok out) :
    out.length = n ∧ ∀ i, i < n → out.getD i 0 = pointedMass n order resps i := by
  unfold orderedAccumulate at h
  obtain ⟨h1, -, h3, -⟩ := scatterLoop_ok resps order _ out h
  refine ⟨by simpa using h1, ?_⟩
  intro i hi
  rw [h3 i]
  simp [hi]

example : orderedAccumulate (some [1, 0, 1, -1]) 3 ([1, 2, 4, 8] : List ℕ) = .ok [2, 5, 8] := by
  decide +kernel

/-- C47: total mass is preserved at each frame. -/
theorem C47_mass (order : List ℤ) (n : ℕ) (resps out : List R)
    (h : orderedAccumulate (some order) n resps = .ok out) : out.sum = resps.sum := by
  unfold orderedAccumulate at h
  obtain ⟨-, -, -, h4⟩ := scatterLoop_ok resps order _ out h
  rw [h4]
  simp

example : orderedAccumulate (some [0, 0]) 2 ([1, 2] : List ℕ) = .ok [3, 0] := by decide +kernel

/-- C47: the scattering succeeds exactly when there is a position for every responsibility and the
positions used point to a component. -/
theorem C47_succeeds_iff (order : List ℤ) (n : ℕ) (resps : List R) :
    (∃ out, orderedAccumulate (some order) n resps = .ok out) ↔
      resps.length ≤ order.length ∧ ∀ k ∈ order.take resps.length, -(n : ℤ) ≤ k ∧ k < n := by
  have hN : ∀ (n : ℕ) (k : ℤ), normIdx n k ≠ none ↔ -(n : ℤ) ≤ k ∧ k < n := by
    intro n k
    unfold normIdx
    split_ifs <;> simp <;> omega
  have key : ∀ (resps : List R) (order : List ℤ) (new : List R),
      (∃ out, scatterLoop resps order new = .ok out) ↔
        resps.length ≤ order.length ∧
          ∀ k ∈ order.take resps.length, -(new.length : ℤ) ≤ k ∧ k < new.length := by
    intro resps
    induction resps with
    | nil => intro order new; simp [scatterLoop]
    | cons val resps ih =>
      intro order new
      cases order with
      | nil => simp [scatterLoop]
      | cons k order =>
        unfold scatterLoop
        rcases ha : addAt new k val with e | new'
        · have : normIdx new.length k = none := by
            unfold addAt at ha
            rcases hn : normIdx new.length k with _ | j
            · rfl
            · rw [hn] at ha; cases ha
          have h2 := (not_iff_not.2 (hN new.length k)).1 (by simp [this])
          simp only [reduceCtorEq, exists_false, List.length_cons, List.take_succ_cons,
            List.mem_cons, false_iff, not_and]
          intro _ hall
          exact h2 (hall k (Or.inl rfl))
        · obtain ⟨j, hj, -, hlen, -⟩ := addAt_ok ha
          have h2 := (hN new.length k).1 (by simp [hj])
          simp only [ih order new', hlen, List.length_cons, List.take_succ_cons, List.mem_cons,
            forall_eq_or_imp, Nat.add_le_add_iff_right]
          constructor
          · rintro ⟨a, b⟩; exact ⟨a, h2, b⟩
          · rintro ⟨a, -, b⟩; exact ⟨a, b⟩
  unfold orderedAccumulate
  simpa using key resps order (List.replicate n 0)

example : orderedAccumulate (some [3]) 3 ([1] : List ℕ) = .error .indexError ∧
    orderedAccumulate (some []) 3 ([1] : List ℕ) = .error .indexError ∧
    orderedAccumulate none 3 ([1] : List ℕ) = .error .keyError := by decide +kernel

theorem getInt_eq_getD {row : List R} {k : ℤ} {a : R} (h : getInt row k = .ok a) :
    ∃ j, normIdx row.length k = some j ∧ a = row.getD j 0 := by
  unfold getInt at h
  rcases hn : normIdx row.length k with _ | j
  · rw [hn] at h; cases h
  · rw [hn] at h
    have hj := normIdx_lt hn
    simp only [List.getElem?_eq_getElem hj] at h
    exact ⟨j, rfl, by rw [List.getD_eq_getElem _ _ hj]; exact (Except.ok.inj h).symm⟩

theorem rowDot_modify (new row : List R) (j : ℕ) (val : R) (hlen : new.length = row.length)
    (hj : j < new.length) :
    rowDot (new.modify j (· + val)) row = rowDot new row + val * row.getD j 0 := by
  induction new generalizing row j with
  | nil => simp at hj
  | cons a new ih =>
    cases row with
    | nil => simp at hlen
    | cons b row =>
      cases j with
      | zero =>
        simp only [rowDot, List.modify_zero_cons, List.zipWith_cons_cons, List.sum_cons,
          List.getD_cons_zero, add_mul]
        rw [add_assoc, add_assoc, add_comm (val * b)]
      | succ j =>
        have := ih row j (by simpa using hlen) (by simpa using hj)
        simp only [rowDot] at this
        simp only [rowDot, List.modify_succ_cons, List.zipWith_cons_cons, List.sum_cons,
          List.getD_cons_succ, this, add_assoc]

/-- C47: gathering the log-likelihoods and scattering the responsibilities are adjoint: the expected
log-likelihood of the re-ordered components is that of the original components with the scattered
responsibilities. The order used by `accumulate` is the one of the last evaluation. -/
theorem C47_adjoint (order : Option (List ℤ)) (row resps gathered out : List R) (cache : OrderCache)
    (hg : orderedLlh order row = (.ok gathered, cache)) (hlen : resps.length = gathered.length)
    (h : orderedAccumulate cache row.length resps = .ok out) :
    rowDot resps gathered = rowDot out row := by
  have hex : ∃ ord, ord.mapM (getInt row) = .ok gathered ∧ cache = some ord := by
    obtain ⟨hg, hc⟩ := Prod.mk.inj hg
    exact ⟨_, hg, hc.symm⟩
  clear hg
  obtain ⟨ord, hg, rfl⟩ := hex
  unfold orderedAccumulate at h
  have key : ∀ (resps : List R) (ord : List ℤ) (gathered new out : List R),
      new.length = row.length → ord.mapM (getInt row) = .ok gathered →
      resps.length = gathered.length →
      scatterLoop resps ord new = .ok out → rowDot out row = rowDot new row + rowDot resps gathered := by
    intro resps
    induction resps with
    | nil =>
      intro ord gathered new out _ _ _ h
      unfold scatterLoop at h
      obtain rfl := Except.ok.inj h
      simp [rowDot]
    | cons val resps ih =>
      intro ord gathered new out hnew hg hlen h
      cases ord with
      | nil => simp [scatterLoop] at h
      | cons k ord =>
        rw [mapM_cons_eq] at hg
        rcases hk : getInt row k with e | a
        · rw [hk] at hg; cases hg
        · rw [hk] at hg
          rcases hr : ord.mapM (getInt row) with e | g'
          · rw [hr] at hg; cases hg
          · rw [hr] at hg
            obtain rfl := Except.ok.inj hg
            unfold scatterLoop at h
            rcases ha : addAt new k val with e | new'
            · rw [ha] at h; cases h
            · rw [ha] at h
              obtain ⟨j, hj, rfl⟩ := getInt_eq_getD hk
              have hj' : normIdx new.length k = some j := by rw [hnew]; exact hj
              have e : new' = new.modify j (· + val) := by
                unfold addAt at ha
                rw [hj'] at ha
                exact (Except.ok.inj ha).symm
              subst e
              rw [ih ord g' _ out (by simpa using hnew) hr (by simpa using hlen) h,
                rowDot_modify new row j val hnew (normIdx_lt hj')]
              simp only [rowDot, List.zipWith_cons_cons, List.sum_cons, add_assoc]
  rw [key resps ord gathered _ out (by simp) hg hlen h]
  have : ∀ row : List R, rowDot (List.replicate row.length 0) row = 0 := by
    intro row
    induction row with
    | nil => rfl
    | cons a row ih =>
      simp only [rowDot] at ih
      simp [rowDot, List.replicate_succ, ih]
  rw [this, zero_add]

example : orderedLlh (some [1, 0, 1, -1]) ([10, 20, 30] : List ℕ) =
    (.ok [20, 10, 20, 30], some [1, 0, 1, -1]) ∧
    rowDot [1, 2, 4, 8] [20, 10, 20, 30] = rowDot [2, 5, 8] [10, 20, 30] := by decide +kernel

/-- C47: without an order the set behaves as the original one. -/
theorem C47_default_order (row resps : List R) (hlen : resps.length = row.length) :
    (orderedLlh none row).1 = .ok row ∧
    orderedAccumulate (orderedLlh none row).2 row.length resps = .ok resps := by
  have h1 : (orderedLlh none row).1 = .ok row := by
    unfold orderedLlh
    dsimp only
    rw [mapM_ok_iff]
    apply List.forall₂_iff_get.2
    refine ⟨by simp, ?_⟩
    intro i hi hi'
    simp only [List.get_eq_getElem, List.getElem_map, List.getElem_range]
    rw [getInt_ofNat]
    simp only [List.length_map, List.length_range] at hi
    simp [List.getElem?_eq_getElem hi]
  refine ⟨h1, ?_⟩
  have hs := (C47_succeeds_iff ((List.range row.length).map (fun i : ℕ => (i : ℤ))) row.length
    resps).2 ⟨by simp [hlen], by
      intro k hk
      have hk := List.mem_of_mem_take hk
      simp only [List.mem_map, List.mem_range] at hk
      obtain ⟨i, hi, rfl⟩ := hk
      omega⟩
  obtain ⟨out, hout⟩ := hs
  have hout' : orderedAccumulate (orderedLlh none row).2 row.length resps = .ok out := hout
  rw [hout']
  obtain ⟨h2, h3⟩ := C47_scatter _ _ _ _ hout
  congr 1
  apply List.ext_getElem (by omega)
  intro i hi hi'
  have := h3 i (by omega)
  rw [List.getD_eq_getElem _ _ hi] at this
  rw [this]
  unfold pointedMass
  have hn : ∀ j : ℕ, j < row.length → normIdx row.length (j : ℤ) = some j := by
    intro j hj
    unfold normIdx
    rw [if_pos (by omega), if_pos (by omega)]
    simp
  have hz : ∀ (n s : ℕ) (l : List R), l.length = n → s + n = row.length → ∀ i (hi : i < l.length),
      (((((List.range' s n).map (fun i : ℕ => (i : ℤ))).zip l).filter
        fun p => normIdx row.length p.1 = some (s + i)).map Prod.snd).sum = l[i] := by
    intro n
    induction n with
    | zero => intro s l hl _ i hi; omega
    | succ n ih =>
      intro s l hl hs i hi
      cases l with
      | nil => simp at hi
      | cons a l =>
        rw [List.range'_succ, List.map_cons, List.zip_cons_cons, List.filter_cons]
        simp only [hn s (by omega)]
        cases i with
        | zero =>
          simp only [add_zero, decide_true, if_true, List.map_cons, List.sum_cons,
            List.getElem_cons_zero]
          have : ((((List.range' (s + 1) n).map (fun i : ℕ => (i : ℤ))).zip l).filter
              fun p => decide (normIdx row.length p.1 = some s)) = [] := by
            rw [List.filter_eq_nil_iff]
            intro p hp
            have := List.of_mem_zip hp |>.1
            simp only [List.mem_map, List.mem_range'_1] at this
            obtain ⟨j, hj, hj'⟩ := this
            rw [← hj', hn j (by omega)]
            simp
            omega
          rw [this]
          simp
        | succ i =>
          have e : ¬ (some s = some (s + (i + 1))) := by simp
          simp only [e, decide_false, Bool.false_eq_true, if_false, List.getElem_cons_succ]
          have := ih (s + 1) l (by simpa using hl) (by omega) i (by simpa using hi)
          rw [← this, show s + 1 + i = s + (i + 1) by omega]
  have := hz row.length 0 resps hlen (by omega) i hi'
  simpa [List.range_eq_range'] using this

example : (orderedLlh none ([5, 6] : List ℕ)).1 = .ok [5, 6] := by decide +kernel

end Ordered

end Verif.Props
