import Verif.Model.Decode
import Verif.Lemmas.ExceptList
import Mathlib.Data.List.Chain
import Mathlib.Algebra.Order.BigOperators.Group.List
import Mathlib.Algebra.BigOperators.Group.Finset.Basic
import Mathlib.Algebra.Order.Ring.Rat
import Mathlib.Tactic.Linarith
import Mathlib.Tactic.NormNum

/-!
# C16 – C18: states to phones
-/

namespace Verif.Spec

/-- The frames spent in one occurrence of a phone: the phone and the states visited (the first state,
then the others). -/
structure PhoneRun (P : Type) where
  phone : P
  start : ℕ
  rest : List ℕ

/-- All states of the run. -/
def PhoneRun.states {P : Type} (r : PhoneRun P) : List ℕ := r.start :: r.rest

/-- The run enters the phone by its start state and does not enter any start state later (it can stay in
it). -/
structure PhoneRun.Valid {P : Type} (startPdf : List (P × ℕ)) (r : PhoneRun P) : Prop where
  enters : (r.phone, r.start) ∈ startPdf
  inside : r.states.IsChain (fun a b => b = a ∨ b ∉ startPdf.map Prod.snd)

/-- The next run starts in another state than the last one of the previous run. -/
def Separated {P : Type} (runs : List (PhoneRun P)) : Prop :=
  runs.IsChain (fun r r' => r.states.getLast? ≠ some r'.start)

end Verif.Spec

namespace Verif.Decode

open Verif.Spec

variable {P : Type}

theorem lookupSym_mem (startPdf : List (P × ℕ)) (hnd : (startPdf.map Prod.snd).Nodup) {p : P} {s : ℕ}
    (h : (p, s) ∈ startPdf) : lookupSym startPdf s = some p := by
  unfold lookupSym
  cases hf : startPdf.reverse.find? (fun item => item.2 = s) with
  | none =>
    rw [List.find?_eq_none] at hf
    have := hf (p, s) (List.mem_reverse.mpr h)
    simp at this
  | some item =>
    have h1 := List.mem_of_find?_eq_some hf
    have h2 := List.find?_some hf
    rw [List.mem_reverse] at h1
    have h3 : item.2 = (p, s).2 := by simpa using h2
    have := List.inj_on_of_nodup_map hnd h1 h h3
    rw [this]; rfl

theorem loop_quiet (startPdf : List (P × ℕ)) (pf : Bool) (sym : P) :
    ∀ (l path : List ℕ) (prev : ℕ) (phones : List P),
    (prev :: l).IsChain (fun a b => b = a ∨ b ∉ startPdf.map Prod.snd) →
    state2phoneLoop startPdf pf (l ++ path) prev sym phones
      = state2phoneLoop startPdf pf path ((prev :: l).getLast (by simp)) sym
          (phones ++ if pf then List.replicate l.length sym else []) := by
  intro l
  induction l with
  | nil => intro path prev phones _; cases pf <;> simp
  | cons a l ih =>
    intro path prev phones h
    rw [List.isChain_cons_cons] at h
    rw [List.cons_append, state2phoneLoop, if_neg (by
      rintro ⟨h1, h2⟩
      exact h.1.elim h1 (fun h3 => h3 h2))]
    cases pf with
    | true =>
      rw [if_pos rfl, ih path a _ h.2, List.getLast_cons (by simp : (a :: l) ≠ [])]
      simp [List.replicate_succ]
    | false =>
      rw [if_neg (by simp), ih path a _ h.2, List.getLast_cons (by simp : (a :: l) ≠ [])]
      rfl

/-- Labels of a list of runs. -/
def runLabels (pf : Bool) (runs : List (PhoneRun P)) : List P :=
  runs.flatMap (fun r => if pf then List.replicate r.states.length r.phone else [r.phone])

theorem loop_runs (startPdf : List (P × ℕ)) (hnd : (startPdf.map Prod.snd).Nodup) (pf : Bool) :
    ∀ (runs : List (PhoneRun P)) (prev : ℕ) (sym : P) (phones : List P),
    (∀ r ∈ runs, r.Valid startPdf) → Separated runs →
    (∀ r, runs.head? = some r → prev ≠ r.start) →
    state2phoneLoop startPdf pf (runs.flatMap PhoneRun.states) prev sym phones
      = .ok (phones ++ runLabels pf runs) := by
  intro runs
  induction runs with
  | nil => intro prev sym phones _ _ _; simp [state2phoneLoop, runLabels]
  | cons r runs ih =>
    intro prev sym phones hv hs hh
    have hr := hv r (by simp)
    rw [List.flatMap_cons, PhoneRun.states, List.cons_append, state2phoneLoop,
      if_pos ⟨Ne.symm (hh r rfl), List.mem_map.mpr ⟨_, hr.enters, rfl⟩⟩,
      lookupSym_mem startPdf hnd hr.enters]
    dsimp only
    rw [loop_quiet startPdf pf r.phone r.rest _ r.start _ hr.inside]
    unfold Separated at hs
    rw [List.isChain_cons] at hs
    rw [ih _ _ _ (fun r' h' => hv r' (by simp [h'])) hs.2 ?_]
    · cases pf <;> simp [runLabels, PhoneRun.states, List.replicate_succ]
    · intro r' h' he
      apply hs.1 r' h'
      rw [← he]
      exact List.getLast?_eq_some_getLast (List.cons_ne_nil _ _)

theorem state2phone_runs (startPdf : List (P × ℕ)) (hnd : (startPdf.map Prod.snd).Nodup) (pf : Bool)
    (runs : List (PhoneRun P)) (hne : runs ≠ []) (hv : ∀ r ∈ runs, r.Valid startPdf)
    (hs : Separated runs) :
    state2phone startPdf pf (runs.flatMap PhoneRun.states) = .ok (runLabels pf runs) := by
  cases runs with
  | nil => exact absurd rfl hne
  | cons r runs =>
    have hr := hv r (by simp)
    rw [List.flatMap_cons, PhoneRun.states, List.cons_append, state2phone,
      lookupSym_mem startPdf hnd hr.enters]
    dsimp only
    rw [loop_quiet startPdf pf r.phone r.rest _ r.start _ hr.inside]
    unfold Separated at hs
    rw [List.isChain_cons] at hs
    rw [loop_runs startPdf hnd pf runs _ _ _ (fun r' h' => hv r' (by simp [h'])) hs.2 ?_]
    · cases pf <;> simp [runLabels, PhoneRun.states, List.replicate_succ]
    · intro r' h' he
      apply hs.1 r' h'
      rw [← he]
      exact List.getLast?_eq_some_getLast (List.cons_ne_nil _ _)

end Verif.Decode

namespace Verif.Props

open Verif.Decode Verif.Spec

variable {P : Type}

/-! ## C16 -/

/-- The phones of a path made of runs are recovered. -/
theorem C16_phones (startPdf : List (P × ℕ)) (hnd : (startPdf.map Prod.snd).Nodup)
    (runs : List (PhoneRun P)) (hne : runs ≠ []) (hv : ∀ r ∈ runs, r.Valid startPdf)
    (hs : Separated runs) :
    state2phone startPdf false (runs.flatMap PhoneRun.states) = .ok (runs.map PhoneRun.phone) := by
  rw [state2phone_runs startPdf hnd false runs hne hv hs]
  congr 1
  unfold runLabels
  simp only [Bool.false_eq_true, if_false]
  exact List.flatMap_pure_eq_map PhoneRun.phone runs

/-- Per frame: one label for every frame, the phone of the run. -/
theorem C16_per_frame (startPdf : List (P × ℕ)) (hnd : (startPdf.map Prod.snd).Nodup)
    (runs : List (PhoneRun P)) (hne : runs ≠ []) (hv : ∀ r ∈ runs, r.Valid startPdf)
    (hs : Separated runs) :
    state2phone startPdf true (runs.flatMap PhoneRun.states)
      = .ok (runs.flatMap (fun r => r.states.map (fun _ => r.phone))) := by
  rw [state2phone_runs startPdf hnd true runs hne hv hs]
  simp [runLabels]

/-- Left-to-right phones: phone `p` occupies the states `lo .. hi` of an interval containing no other
start state, every run begins in `lo` and never goes back, and a phone directly followed by itself leaves
its start state. -/
theorem C16_left_to_right (inv : List (P × ℕ × ℕ)) (hnd : (inv.map (fun x => x.2.1)).Nodup)
    (hdisj : ∀ x ∈ inv, ∀ y ∈ inv, x.2.1 ≤ y.2.1 → y.2.1 ≤ x.2.2 → y = x)
    (runs : List (PhoneRun P)) (hne : runs ≠ [])
    (hruns : ∀ r ∈ runs, ∃ hi, (r.phone, r.start, hi) ∈ inv ∧ r.states.IsChain (· ≤ ·) ∧
      ∀ s ∈ r.states, r.start ≤ s ∧ s ≤ hi)
    (hrep : runs.IsChain (fun r r' => r.start = r'.start → r.states.getLast? ≠ some r.start)) :
    state2phone (inv.map (fun x => (x.1, x.2.1))) false (runs.flatMap PhoneRun.states)
      = .ok (runs.map PhoneRun.phone) := by
  have hmap : (inv.map (fun x => (x.1, x.2.1))).map Prod.snd = inv.map (fun x => x.2.1) := by
    rw [List.map_map]; rfl
  have hstart : ∀ (r : PhoneRun P) hi, (r.phone, r.start, hi) ∈ inv → ∀ s, r.start ≤ s → s ≤ hi →
      s ∈ inv.map (fun x => x.2.1) → s = r.start := by
    intro r hi hr s h1 h2 h3
    obtain ⟨y, hy, rfl⟩ := List.mem_map.mp h3
    rw [hdisj _ hr y hy h1 h2]
  refine C16_phones _ (by rw [hmap]; exact hnd) runs hne (fun r hr => ?_) ?_
  · obtain ⟨hi, hmem, hch, hall⟩ := hruns r hr
    refine ⟨List.mem_map.mpr ⟨_, hmem, rfl⟩, ?_⟩
    rw [hmap]
    refine List.IsChain.imp_of_mem_imp ?_ hch
    intro a b ha hb hab
    by_cases hbs : b ∈ inv.map (fun x => x.2.1)
    · left
      have h1 := hstart r hi hmem b (hall b hb).1 (hall b hb).2 hbs
      have h2 := (hall a ha).1
      omega
    · exact Or.inr hbs
  · refine List.IsChain.imp_of_mem_imp ?_ hrep
    intro r r' hr hr' hrr hlast
    obtain ⟨hi, hmem, _, hall⟩ := hruns r hr
    obtain ⟨hi', hmem', _, _⟩ := hruns r' hr'
    have hin : r'.start ∈ r.states := List.mem_of_getLast? hlast
    have := hstart r hi hmem r'.start (hall _ hin).1 (hall _ hin).2
      (List.mem_map.mpr ⟨_, hmem', rfl⟩)
    exact hrr this.symm (by rw [hlast, this])

/-- Two three-state phones, `a b b`. -/
example : state2phone [("a", 0), ("b", 3)] false [0, 0, 1, 2, 3, 4, 5, 3, 3, 4, 5] = .ok ["a", "b", "b"] := by
  decide

example : state2phone [("a", 0), ("b", 3)] true [0, 0, 1, 2, 3, 4, 5, 3] =
    .ok ["a", "a", "a", "a", "b", "b", "b", "b"] := by decide

/-- The hypotheses of `C16_left_to_right` hold for that path. -/
example : state2phone ([("a", 0, 2), ("b", 3, 5)].map (fun x => (x.1, x.2.1))) false
    (([⟨"a", 0, [0, 1, 2]⟩, ⟨"b", 3, [4, 5]⟩, ⟨"b", 3, [3, 4, 5]⟩] : List (PhoneRun String)).flatMap
      PhoneRun.states) = .ok ["a", "b", "b"] :=
  C16_left_to_right [("a", 0, 2), ("b", 3, 5)] (by decide) (by decide) _ (by decide)
    (by
      intro r hr
      simp only [List.mem_cons, List.not_mem_nil, or_false] at hr
      rcases hr with rfl | rfl | rfl
      · exact ⟨2, by decide, by decide, by decide⟩
      · exact ⟨5, by decide, by decide, by decide⟩
      · exact ⟨5, by decide, by decide, by decide⟩)
    (by decide)

/-- Error branches: a path that does not begin in a start state, and the empty path. -/
theorem C16_errors (startPdf : List (P × ℕ)) (pf : Bool) :
    state2phone startPdf pf [] = .error .indexError ∧
    ∀ s path, s ∉ startPdf.map Prod.snd → state2phone startPdf pf (s :: path) = .error .keyError := by
  refine ⟨rfl, fun s path hs => ?_⟩
  have : lookupSym startPdf s = none := by
    unfold lookupSym
    rw [Option.map_eq_none_iff, List.find?_eq_none]
    intro item hi h
    exact hs (List.mem_map.mpr ⟨item, List.mem_reverse.mp hi, by simpa using h⟩)
  rw [state2phone, this]

example : state2phone [("a", 0), ("b", 3)] false [1, 2, 3] = .error .keyError := by decide

/-! ## C17 -/

/-- A phone with one state repeated `n + 1` times in a row is always returned once. -/
theorem C17_single_state_repeated (startPdf : List (P × ℕ)) (hnd : (startPdf.map Prod.snd).Nodup)
    (p : P) (s : ℕ) (h : (p, s) ∈ startPdf) (n : ℕ) :
    state2phone startPdf false (List.replicate (n + 1) s) = .ok [p] := by
  have := C16_phones startPdf hnd [⟨p, s, List.replicate n s⟩] (by simp)
    (by
      intro r hr
      obtain rfl := List.mem_singleton.mp hr
      refine ⟨h, ?_⟩
      clear hr
      have : (List.replicate (n + 1) s).IsChain (fun a b => b = a ∨ b ∉ startPdf.map Prod.snd) := by
        induction n with
        | zero => simp
        | succ n ih => rw [List.replicate_succ, List.replicate_succ, List.isChain_cons_cons]
                       exact ⟨Or.inl rfl, by rw [← List.replicate_succ]; exact ih⟩
      exact this)
    (by simp [Separated])
  simpa [PhoneRun.states, List.replicate_succ] using this

/-- The property fails: the phones `a a` come back as `a`. -/
theorem C17_repetition_lost : state2phone [("a", 0), ("b", 1)] false [0, 0, 1, 0]
    = .ok ["a", "b", "a"] ∧ state2phone [("a", 0), ("b", 1)] false [0, 0] ≠ .ok ["a", "a"] := by decide

/-! ## C18 -/

theorem sliceSum_succ_aux {K : Type} [AddCommMonoid K] (row : List K) (a b : ℕ) (hab : a ≤ b)
    (x : K) (hx : row[b]? = some x) :
    sliceSum row a (b + 1) = sliceSum row a b + x := by
  have hb := (List.getElem?_eq_some_iff.mp hx)
  obtain ⟨hlt, rfl⟩ := hb
  unfold sliceSum
  rw [List.take_succ_eq_append_getElem hlt, List.drop_append_of_le_length (by
    rw [List.length_take]; omega), List.sum_append, List.sum_singleton]

/-- The posterior of a phone whose states are `start .. end` is the sum over its states without the last
one. Missing from the property: the posterior of the end state, which the code drops. -/
theorem C18_all_but_end_state_partial {K : Type} [AddCommMonoid K] [DecidableEq P]
    (startPdf endPdf : List (P × ℕ)) (row out : List K)
    (h : phonePosteriors startPdf endPdf row = .ok out) (i : ℕ) (p : P) (a : ℕ)
    (hi : startPdf[i]? = some (p, a)) :
    ∃ b y, endPdf.lookup p = some b ∧ out[i]? = some y ∧
      (∀ x, a ≤ b → row[b]? = some x → y + x = sliceSum row a (b + 1)) := by
  obtain ⟨y, hy, hf⟩ := mapM_getElem h hi
  unfold phoneColumn at hf
  cases hl : endPdf.lookup p with
  | none => rw [hl] at hf; cases hf
  | some b =>
    rw [hl] at hf
    obtain rfl := Except.ok.inj hf
    exact ⟨b, _, rfl, hy, fun x hab hx => (sliceSum_succ_aux row a b hab x hx).symm⟩

example : phonePosteriors [("a", 0), ("b", 3)] [("a", 2), ("b", 5)]
    ([1/8, 1/8, 1/4, 0, 1/4, 1/4] : List ℚ) = .ok [1/4, 1/4] := by decide +kernel

/-- The property fails: a phone with a single state always gets zero, whatever its posterior. -/
theorem C18_single_state_phone_is_zero {K : Type} [AddCommMonoid K] [DecidableEq P] (p : P) (s : ℕ)
    (row : List K) : phonePosteriors [(p, s)] [(p, s)] row = .ok [0] := by
  have : sliceSum row s s = 0 := by
    unfold sliceSum
    rw [List.drop_eq_nil_of_le (by rw [List.length_take]; omega)]
    rfl
  refine mapM_ok_map _ (fun _ => 0) _ (fun item hitem => ?_)
  obtain rfl := List.mem_singleton.mp hitem
  simp [phoneColumn, this]

/-- The phone posteriors of a frame do not sum to one. -/
theorem C18_mass_lost : phonePosteriors [("a", 0), ("b", 3)] [("a", 2), ("b", 5)]
    ([1/8, 1/8, 1/4, 0, 1/4, 1/4] : List ℚ) = .ok [1/4, 1/4] ∧
    ([1/8, 1/8, 1/4, 0, 1/4, 1/4] : List ℚ).sum = 1 ∧ ([1/4, 1/4] : List ℚ).sum ≠ 1 := by
  decide +kernel

end Verif.Props
