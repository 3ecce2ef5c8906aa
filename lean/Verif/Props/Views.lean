import Verif.Lemmas.Views

/-!
# C124 - C127: elements of sets of distributions and of parameters
-/

namespace Verif.Props

open Verif Pipeline Views ViewsSpec

variable {V : Type}

/-! ## C124: elements of distributions -/

/-- An index selects the rows at its positions (integers and lists count from the end when negative, slices are
cut to the size); it is refused exactly when one of them is out of range. -/
theorem C124_index (rows : List V) (key : Key) :
    (∀ ps, positions rows.length key = some ps →
      ∃ t, (Val.many rows).index key = .ok t ∧ (rowsOf t).map some = ps.map fun i => rows[i]?) ∧
    (positions rows.length key = none → (Val.many rows).index key = .error .indexError) := by
  cases key with
  | int k =>
    unfold positions Val.index
    dsimp only
    by_cases h1 : 0 ≤ k ∧ k < rows.length
    · rw [if_pos h1, rowAt_ok rows k k.toNat (by omega) (by rw [if_neg (by omega)]; omega)]
      refine ⟨fun ps h => ⟨_, rfl, ?_⟩, fun h => by simp at h⟩
      cases h
      simp [rowsOf]
    · rw [if_neg h1]
      by_cases h2 : k < 0 ∧ 0 ≤ k + rows.length
      · rw [if_pos h2, rowAt_ok rows k (k + rows.length).toNat (by omega) (by rw [if_pos (by omega)]; omega)]
        refine ⟨fun ps h => ⟨_, rfl, ?_⟩, fun h => by simp at h⟩
        cases h
        simp [rowsOf]
      · rw [if_neg h2, rowAt_error _ _ (by omega)]
        exact ⟨fun ps h => by simp at h, fun _ => rfl⟩
  | slice a b =>
    refine ⟨fun ps h => ⟨_, rfl, ?_⟩, fun h => by simp [positions] at h⟩
    simp only [positions, Option.some.injEq] at h
    subst h
    apply List.ext_getElem?
    intro i
    simp only [rowsOf, List.getElem?_map, List.getElem?_drop, List.getElem?_take]
    by_cases hi : i < min b rows.length - a
    · rw [if_pos (by omega), List.getElem?_range' hi, List.getElem?_eq_getElem (by omega : a + i < rows.length)]
      simp only [Option.map_some, Nat.one_mul]
      rw [List.getElem?_eq_getElem (by omega : a + i < rows.length)]
    · rw [List.getElem?_eq_none (by simpa using hi : (List.range' a (min b rows.length - a)).length ≤ i)]
      split
      · rw [List.getElem?_eq_none (by omega)]
        rfl
      · rfl
  | list ks =>
    unfold positions Val.index
    dsimp only
    by_cases h : ∀ k ∈ ks, -(rows.length : ℤ) ≤ k ∧ k < rows.length
    · rw [if_pos h]
      refine ⟨fun ps hps => ?_, fun h => by simp at h⟩
      have hne : ks ≠ [] → rows ≠ [] := by
        rintro hk rfl
        obtain ⟨k, hk⟩ := List.exists_mem_of_ne_nil _ hk
        have := h k hk
        simp at this
        omega
      have hrow : ∀ k ∈ ks, ∃ v, rowAt rows k = .ok v ∧
          rows[((if k < 0 then k + (rows.length : ℤ) else k).toNat)]? = some v := by
        intro k hk
        have hb := h k hk
        have hlt : (if k < 0 then k + (rows.length : ℤ) else k).toNat < rows.length := by split <;> omega
        exact ⟨_, rowAt_ok rows k _ hlt (by split <;> omega), List.getElem?_eq_getElem hlt⟩
      have hall : ∀ ks : List ℤ, (∀ k ∈ ks, ∃ v, rowAt rows k = .ok v ∧
          rows[((if k < 0 then k + (rows.length : ℤ) else k).toNat)]? = some v) →
          ∃ vs, Eval.listComp (rowAt rows) ks = .ok vs ∧
            vs.map some = ks.map fun k => rows[((if k < 0 then k + (rows.length : ℤ) else k).toNat)]? := by
        intro ks
        induction ks with
        | nil => exact fun _ => ⟨[], rfl, rfl⟩
        | cons k ks ih =>
          intro h
          obtain ⟨v, h1, h2⟩ := h k List.mem_cons_self
          obtain ⟨vs, h3, h4⟩ := ih fun k' hk => h k' (List.mem_cons_of_mem _ hk)
          refine ⟨v :: vs, ?_, ?_⟩
          · rw [Eval.listComp, h1, h3]
          · rw [List.map_cons, List.map_cons, h4, h2]
      obtain ⟨vs, h1, h2⟩ := hall ks hrow
      rw [h1]
      refine ⟨_, rfl, ?_⟩
      cases hps
      rw [List.map_map]
      exact h2
    · rw [if_neg h]
      refine ⟨fun ps h => by simp at h, fun _ => ?_⟩
      push Not at h
      obtain ⟨k, hk, hb⟩ := h
      have hcomp : Eval.listComp (rowAt rows) ks = .error .indexError := by
        refine Eval.listComp_error (rowAt rows) .indexError ks (fun x _ e' he => ?_)
          ⟨k, hk, .indexError, rowAt_error _ _ fun h => absurd h.2 (by have := hb h.1; omega)⟩
        unfold rowAt at he
        split at he
        · rename_i e hp
          unfold position at hp
          split at hp
          · simp at hp
          · split at hp
            · simp at hp
            · simp_all
        · split at he <;> simp_all
      rw [hcomp]

example : (Val.many [10, 20, 30]).index (.int (-1)) = .ok (.one 30) ∧
    (Val.many [10, 20, 30]).index (.slice 1 7) = .ok (.many [20, 30]) ∧
    (Val.many [10, 20, 30]).index (.list [2, -3]) = .ok (.many [30, 10]) ∧
    (Val.many [10, 20, 30]).index (.int 3) = .error .indexError := by decide +kernel

/-- Taking an element leaves all the distributions as they are and gives the selected rows of every attribute. -/
theorem C124_element (s : State V) (hs : Valid s) (d : ℕ) (hd : d < s.dists.length) (key : Key) (name : String) :
    (s.run (.getitem d key)).read s.dists.length name =
      (match s.read d name with
        | .error e => .error e
        | .ok t => t.index key) ∧
    ∀ d' < s.dists.length, (s.run (.getitem d key)).read d' name = s.read d' name := by
  refine ⟨?_, fun d' hd' => read_run s hs _ d' hd' (by simp) (by simp) name⟩
  unfold State.run State.read
  dsimp only
  rw [List.getElem?_eq_getElem hd]
  dsimp only
  rw [List.getElem?_append_right (le_refl _), Nat.sub_self]
  rfl

/-- Elements of elements: a row of a slice or of a list is the row of the set at the position it has there. -/
theorem C124_nested (rows : List V) (j : ℕ) :
    (∀ a b, j < min b rows.length - a →
      ∀ t, (Val.many rows).index (.slice a b) = .ok t → t.index (.int j) = (Val.many rows).index (.int (a + j : ℕ))) ∧
    (∀ (ks : List ℤ) (hj : j < ks.length) t, (Val.many rows).index (.list ks) = .ok t →
      t.index (.int j) = (Val.many rows).index (.int ks[j])) := by
  constructor
  · intro a b hj t ht
    cases ht
    have hl : j < ((rows.take b).drop a).length := by simp; omega
    unfold Val.index
    dsimp only
    rw [rowAt_ok _ _ j hl (by rw [if_neg (by omega)]), rowAt_ok rows _ (a + j) (by omega) (by rw [if_neg (by omega)])]
    simp
  · intro ks hj t ht
    unfold Val.index at ht
    dsimp only at ht
    split at ht
    · simp at ht
    · rename_i vs hvs
      cases ht
      have hget : ∀ (ks : List ℤ) (vs : List V) (j : ℕ), Eval.listComp (rowAt rows) ks = .ok vs →
          ∀ hj : j < ks.length, ∃ hv : j < vs.length, rowAt rows ks[j] = .ok vs[j] := by
        intro ks
        induction ks with
        | nil => intro vs j _ hj; simp at hj
        | cons k ks ih =>
          intro vs j h hj
          rw [Eval.listComp] at h
          cases hk : rowAt rows k with
          | error e => rw [hk] at h; simp at h
          | ok v =>
            rw [hk] at h
            dsimp only at h
            cases hr : Eval.listComp (rowAt rows) ks with
            | error e => rw [hr] at h; simp at h
            | ok ws =>
              rw [hr] at h
              simp only [Except.ok.injEq] at h
              subst h
              cases j with
              | zero => exact ⟨by simp, hk⟩
              | succ j =>
                obtain ⟨hv, h'⟩ := ih ws j hr (by simpa using hj)
                exact ⟨by simpa using hv, by simpa using h'⟩
      obtain ⟨hv, h'⟩ := hget ks vs j hvs hj
      unfold Val.index
      dsimp only
      rw [rowAt_ok vs _ j hv (by rw [if_neg (by omega)]), h']

example : ∃ t, (Val.many [10, 20, 30, 40]).index (.slice 1 4) = .ok t ∧ t.index (.int 1) = .ok (.one 30) :=
  ⟨.many [20, 30, 40], rfl, rfl⟩

/-- As long as neither the set nor the element is updated, whatever the other operations, the steps of torch
optimisers in place included, the element is the element of the current set. -/
theorem C124_view_partial (s : State V) (d : ℕ) (hd : d < s.dists.length) (key : Key)
    (ops : List (Op V)) (h1 : ∀ new, .update d new ∉ ops) (h2 : ∀ new, .update s.dists.length new ∉ ops)
    (name : String) :
    ((s.run (.getitem d key)).runAll ops).read s.dists.length name =
      match ((s.run (.getitem d key)).runAll ops).read d name with
        | .error e => .error e
        | .ok t => t.index key := by
  have hrun : (s.run (.getitem d key)).dists = s.dists ++ [.view s.dists[d] key] := by
    unfold State.run
    dsimp only
    rw [List.getElem?_eq_getElem hd]
  have hl : (s.run (.getitem d key)).dists.length = s.dists.length + 1 := by rw [hrun]; simp
  unfold State.read
  rw [dists_runAll _ _ _ (by omega) h2, dists_runAll _ _ _ (by omega) h1, hrun,
    List.getElem?_append_right (le_refl _), List.getElem?_append_left hd, List.getElem?_eq_getElem hd, Nat.sub_self]
  rfl

/-- The code violates the property with conjugate updates: without steps in place, what an element reads never
changes until it is itself updated; the updates of the set are never seen. -/
theorem C124_stale (s : State V) (hs : Valid s) (e : ℕ) (he : e < s.dists.length) (ops : List (Op V))
    (h1 : ∀ new, .update e new ∉ ops) (h2 : ∀ l new, .step l new ∉ ops) (name : String) :
    (s.runAll ops).read e name = s.read e name := by
  induction ops generalizing s with
  | nil => rfl
  | cons op ops ih =>
    show ((s.run op).runAll ops).read e name = _
    rw [ih (s.run op) (valid_run s hs op) (lt_of_lt_of_le he (dists_run_length s op))
      (fun new h => h1 new (List.mem_cons_of_mem _ h)) fun l new h => h2 l new (List.mem_cons_of_mem _ h)]
    apply read_run s hs op e he
    · rintro new rfl
      exact h1 new List.mem_cons_self
    · rintro l new rfl
      exact h2 l new List.mem_cons_self

/-- Nor does the update of an element change the set (nor anything else). -/
theorem C124_update_element (s : State V) (hs : Valid s) (e d : ℕ) (hd : d < s.dists.length) (hne : d ≠ e)
    (new : Params V) (name : String) : (s.run (.update e new)).read d name = s.read d name :=
  read_run s hs _ d hd (by rintro new' h; cases h; exact hne rfl) (by simp) name

/-- Updated distributions read their new parameters. -/
theorem C124_updated (s : State V) (d : ℕ) (hd : d < s.dists.length) (new : Params V) (name : String) :
    (s.run (.update d new)).read d name = match new.lookup name with
      | none => .error .attributeError
      | some t => .ok t := by
  unfold State.run State.read
  dsimp only
  rw [List.getElem?_set_self hd]
  dsimp only
  unfold attr
  rw [List.getElem?_append_right (le_refl _), Nat.sub_self]
  rfl

/-- A set of two distributions, its second element, and an update of the set: the element is still the old
one. -/
example :
    let s : State ℕ := ⟨[[("mean", .many [1, 2])]], [.own 0]⟩
    let s1 := s.runAll [.getitem 0 (.int 1), .update 0 [("mean", .many [5, 6])]]
    Valid s ∧ s1.read 0 "mean" = .ok (.many [5, 6]) ∧ s1.read 1 "mean" = .ok (.one 2) ∧
      (s.runAll [.getitem 0 (.int 1), .step 0 [("mean", .many [5, 6])]]).read 1 "mean" = .ok (.one 6) := by
  refine ⟨?_, rfl, rfl, rfl⟩
  intro r hr
  rw [List.mem_singleton] at hr
  subst hr
  exact Nat.zero_lt_one

/-- Taking an element out of range does not raise (it is refused when it is read), so that iterating over a
distribution never ends. -/
theorem C124_iterate_never_ends (s : State V) (d : ℕ) (hd : d < s.dists.length) (fuel k : ℕ) :
    s.iterate d fuel k ≠ none := by
  induction fuel generalizing s k with
  | zero => simp [State.iterate]
  | succ fuel ih =>
    unfold State.iterate
    rw [List.getElem?_eq_getElem hd]
    dsimp only
    exact ih _ (lt_of_lt_of_le hd (dists_run_length s _)) (k + 1)

example : (⟨[[("mean", .many [1, 2])]], [.own 0]⟩ : State ℕ).iterate 0 5 0 ≠ none ∧
    ((⟨[[("mean", .many [1, 2])]], [.own 0]⟩ : State ℕ).run (.getitem 0 (.int 4))).read 1 "mean" =
      .error .indexError := ⟨C124_iterate_never_ends _ 0 (by decide) 5 0, rfl⟩

/-! ## C125: elements of Bayesian parameters -/

/-- The element of a parameter has the selected prior, posterior and statistics, its own identifier and no
observer; out of range it is refused. -/
theorem C125_element (s : State V) (hs : Valid s) (p : CParam V) (hp : p.prior < s.dists.length)
    (hq : p.posterior < s.dists.length) (fresh : ℕ) (key : Key) :
    (∀ st, p.stats.index key = .ok st → ∃ s' e, p.getitem s fresh key = .ok (s', e) ∧ e.stats = st ∧
      e.uuid = fresh ∧ e.callbacks = [] ∧ ∀ name,
        (s'.read e.prior name = match s.read p.prior name with
          | .error e => .error e
          | .ok t => t.index key) ∧
        (s'.read e.posterior name = match s.read p.posterior name with
          | .error e => .error e
          | .ok t => t.index key) ∧
        (∀ d < s.dists.length, s'.read d name = s.read d name)) ∧
    (∀ e, p.stats.index key = .error e → p.getitem s fresh key = .error e) := by
  unfold CParam.getitem
  rw [List.getElem?_eq_getElem hp, List.getElem?_eq_getElem hq]
  dsimp only
  constructor
  · intro st hst
    rw [hst]
    refine ⟨_, _, rfl, rfl, rfl, rfl, fun name => ?_⟩
    have hs1 := valid_run s hs (.getitem p.prior key)
    have hl : (s.run (.getitem p.prior key)).dists.length = s.dists.length + 1 := by
      unfold State.run
      dsimp only
      rw [List.getElem?_eq_getElem hp]
      simp
    have e1 := C124_element s hs p.prior hp key name
    have e2 := C124_element (s.run (.getitem p.prior key)) hs1 p.posterior (by omega) key name
    refine ⟨?_, ?_, fun d hd => ?_⟩
    · rw [e2.2 _ (by dsimp only; omega)]
      exact e1.1
    · rw [← e1.2 _ hq]
      exact e2.1
    · rw [e2.2 _ (by omega), e1.2 _ hd]
  · intro e he
    rw [he]

/-- Storing or resetting statistics and updating a parameter changes neither the statistics nor the prior nor the
posterior of another one, as long as its posterior is another distribution; an element and its set never share
them. -/
theorem C125_independent (s : State V) (hs : Valid s) (p q : CParam V) (hp : p.prior < s.dists.length)
    (hq : p.posterior < s.dists.length) (h1 : p.prior ≠ q.posterior) (h2 : p.posterior ≠ q.posterior)
    (ops : List (POp V)) (name : String) :
    let r := ops.foldl CParam.run (s, q)
    r.1.read p.prior name = s.read p.prior name ∧ r.1.read p.posterior name = s.read p.posterior name ∧
      r.2.posterior = q.posterior ∧ r.2.prior = q.prior ∧ r.2.uuid = q.uuid := by
  induction ops generalizing s q with
  | nil => exact ⟨rfl, rfl, rfl, rfl, rfl⟩
  | cons op ops ih =>
    cases op with
    | store st => exact ih s hs { q with stats := st } hp hq h1 h2
    | zero z => exact ih s hs { q with stats := q.stats.zeros z } hp hq h1 h2
    | update new =>
      have := ih (s.run (.update q.posterior new)) (valid_run s hs _) q
        (lt_of_lt_of_le hp (dists_run_length s _)) (lt_of_lt_of_le hq (dists_run_length s _)) h1 h2
      rw [C124_update_element s hs _ _ hp h1, C124_update_element s hs _ _ hq h2] at this
      exact this

/-- The distributions of an element are new ones. -/
theorem C125_new_distributions (s : State V) (p : CParam V) (fresh : ℕ) (key : Key) (s' : State V) (e : CParam V)
    (h : p.getitem s fresh key = .ok (s', e)) :
    s.dists.length ≤ e.prior ∧ s.dists.length ≤ e.posterior ∧ e.prior ≠ e.posterior := by
  unfold CParam.getitem at h
  split at h
  · rename_i x y hx hy
    dsimp only at h
    split at h
    · simp at h
    · simp only [Except.ok.injEq, Prod.mk.injEq] at h
      obtain ⟨-, rfl⟩ := h
      refine ⟨le_refl _, dists_run_length s _, ?_⟩
      dsimp only
      unfold State.run
      dsimp only
      rw [hx]
      simp
  · simp at h

example :
    let s : State ℕ := ⟨[[("mean", .many [1, 2])], [("mean", .many [3, 4])]], [.own 0, .own 1]⟩
    let p : CParam ℕ := ⟨7, 0, 1, .many [0, 9], []⟩
    ∃ s' e, p.getitem s 8 (.int 1) = .ok (s', e) ∧ e.stats = .one 9 ∧ s'.read e.posterior "mean" = .ok (.one 4) ∧
      (CParam.run (s', e) (.update [("mean", .one 50)])).1.read 1 "mean" = .ok (.many [3, 4]) :=
  ⟨_, _, rfl, rfl, rfl, rfl⟩

/-- Observers: each registered one is called exactly once by an update, before or after it as asked, even if it was
registered several times. -/
theorem C125_observers (p : CParam V) (hp : p.callbacks = []) (regs : List (ℕ × Bool)) :
    let p' := regs.foldl (fun p r => p.register r.1 r.2) p
    ∃ before after, p'.events = before ++ .updated :: after ∧ before.Nodup ∧ after.Nodup ∧
      ∀ c, (Event.call c ∈ before ↔ (c, true) ∈ regs) ∧ (Event.call c ∈ after ↔ (c, false) ∈ regs) := by
  have key : ∀ (regs : List (ℕ × Bool)) (p : CParam V), p.callbacks.Nodup →
      (regs.foldl (fun p r => p.register r.1 r.2) p).callbacks.Nodup ∧
      ∀ r, r ∈ (regs.foldl (fun p r => p.register r.1 r.2) p).callbacks ↔ r ∈ p.callbacks ∨ r ∈ regs := by
    intro regs
    induction regs with
    | nil => exact fun p hp => ⟨hp, by simp⟩
    | cons r regs ih =>
      intro p hp
      have hreg : (p.register r.1 r.2).callbacks.Nodup ∧
          ∀ x, x ∈ (p.register r.1 r.2).callbacks ↔ x ∈ p.callbacks ∨ x = r := by
        unfold CParam.register
        split
        · rename_i hin
          refine ⟨hp, fun x => ⟨Or.inl, ?_⟩⟩
          rintro (h | rfl)
          · exact h
          · exact hin
        · rename_i hin
          refine ⟨List.nodup_append.2 ⟨hp, by simp, ?_⟩, by simp⟩
          intro a ha b hb
          rw [List.mem_singleton] at hb
          subst hb
          rintro rfl
          exact hin ha
      obtain ⟨h1, h2⟩ := ih _ hreg.1
      refine ⟨h1, fun x => ?_⟩
      rw [List.foldl_cons, h2, hreg.2, List.mem_cons, or_assoc]
  obtain ⟨hn, hm⟩ := key regs p (by rw [hp]; exact List.nodup_nil)
  rw [hp] at hm
  simp only [List.not_mem_nil, false_or] at hm
  intro p'
  have hd : ∀ b, (p'.dispatch b).Nodup ∧ ∀ c, Event.call c ∈ p'.dispatch b ↔ (c, b) ∈ regs := by
    intro b
    unfold CParam.dispatch
    constructor
    · refine List.Nodup.map_on ?_ (hn.filter _)
      intro x hx y hy hxy
      simp only [List.mem_filter, beq_iff_eq] at hx hy
      have h1 : x.1 = y.1 := by simpa using hxy
      exact Prod.ext h1 (hx.2.trans hy.2.symm)
    · intro c
      simp only [List.mem_map, List.mem_filter, beq_iff_eq, Event.call.injEq]
      constructor
      · rintro ⟨x, ⟨hx, rfl⟩, rfl⟩
        exact (hm x).1 hx
      · intro h
        exact ⟨(c, b), ⟨(hm _).2 h, rfl⟩, rfl⟩
  exact ⟨p'.dispatch true, p'.dispatch false, by simp [CParam.events], (hd true).1, (hd false).1,
    fun c => ⟨(hd true).2 c, (hd false).2 c⟩⟩

example : ((((⟨0, 0, 0, .one 0, []⟩ : CParam ℕ).register 3 false).register 4 true).register 3 false).events =
    [.call 4, .updated, .call 3] := by decide +kernel

/-- Equality of parameters is equality of the hashes of their identifiers: identifiers below `2^61 - 1` are told
apart, and every parameter equals itself. -/
theorem C125_equality_partial (u v : ℕ) (hu : u < 2 ^ 61 - 1) (hv : v < 2 ^ 61 - 1) :
    (eq u v = true ↔ u = v) ∧ eq u u = true := by
  unfold eq Views.hash
  rw [Nat.mod_eq_of_lt hu, Nat.mod_eq_of_lt hv]
  simp

/-- The code violates the property for identifiers with the same hash: different parameters are equal. -/
theorem C125_hash_collision : ∃ u v, u < 2 ^ 128 ∧ v < 2 ^ 128 ∧ u ≠ v ∧ eq u v = true :=
  ⟨0, 2 ^ 61 - 1, by decide +kernel⟩

example : eq 5 6 = false := by decide +kernel

/-! ## C126: elements of the parameters of subspace models -/

/-- Reading gives back what was assigned, and the rows that are not selected keep their values: statistics. -/
theorem C126_stats (rows : List V) (pdfvec : Val V) (k : ℤ) (hk : -(rows.length : ℤ) ≤ k ∧ k < rows.length) (v : V) :
    ∃ rows', setViewStats ⟨.many rows, pdfvec⟩ (.int k) (.one v) = .ok ⟨.many rows', pdfvec⟩ ∧
      viewStats ⟨.many rows', pdfvec⟩ (.int k) = .ok (.one v) ∧ rows'.length = rows.length ∧
      ∀ j : ℕ, (j : ℤ) ≠ (if k < 0 then k + rows.length else k) → rows'[j]? = rows[j]? := by
  have hi : (if k < 0 then k + (rows.length : ℤ) else k).toNat < rows.length := by split <;> omega
  have hc : (((if k < 0 then k + (rows.length : ℤ) else k).toNat : ℕ) : ℤ) = if k < 0 then k + rows.length else k := by
    split <;> omega
  refine ⟨rows.set (if k < 0 then k + (rows.length : ℤ) else k).toNat v, ?_, ?_, List.length_set, ?_⟩
  · unfold setViewStats Val.assign setRow
    dsimp only
    rw [(position_iff _ _ _).2 ⟨hi, hc⟩]
  · unfold viewStats Val.index
    dsimp only
    rw [rowAt_ok _ k _ (by rw [List.length_set]; exact hi) (by rw [List.length_set]; exact hc),
      List.getElem_set_self]
  · intro j hj
    rw [List.getElem?_set_ne]
    intro h
    apply hj
    rw [← hc, h]

/-- The same for slices, and for the pdf-vectors. -/
theorem C126_slice (rows : List V) (st : Val V) (a b : ℕ) (vs : List V)
    (hl : vs.length = min b rows.length - a) :
    ∃ rows', setViewPdfvec ⟨st, .many rows⟩ (.slice a b) (.many vs) = .ok ⟨st, .many rows'⟩ ∧
      setViewStats ⟨.many rows, st⟩ (.slice a b) (.many vs) = .ok ⟨.many rows', st⟩ ∧
      viewPdfvec ⟨st, .many rows'⟩ (.slice a b) = .ok (.many vs) ∧
      viewStats ⟨.many rows', st⟩ (.slice a b) = .ok (.many vs) ∧ rows'.length = rows.length ∧
      ∀ j, j < a ∨ b ≤ j → rows'[j]? = rows[j]? := by
  have hlen : vs.length = ((rows.take b).drop a).length := by simp; omega
  suffices h : ∃ rows', setViewPdfvec ⟨st, .many rows⟩ (.slice a b) (.many vs) = .ok ⟨st, .many rows'⟩ ∧
      setViewStats ⟨.many rows, st⟩ (.slice a b) (.many vs) = .ok ⟨.many rows', st⟩ ∧
      viewPdfvec ⟨st, .many rows'⟩ (.slice a b) = .ok (.many vs) ∧ rows'.length = rows.length ∧
      ∀ j, j < a ∨ b ≤ j → rows'[j]? = rows[j]? by
    obtain ⟨rows', h1, h2, h3, h4⟩ := h
    exact ⟨rows', h1, h2, h3, h3, h4⟩
  by_cases hv : vs = []
  · refine ⟨rows, ?_, ?_, ?_, rfl, fun _ _ => rfl⟩
    · unfold setViewPdfvec Val.assign
      dsimp only
      rw [if_pos hlen, if_pos hv]
    · unfold setViewStats Val.assign
      dsimp only
      rw [if_pos hlen, if_pos hv]
    · subst hv
      unfold viewPdfvec Val.index
      dsimp only
      rw [List.eq_nil_of_length_eq_zero (l := (rows.take b).drop a) (by rw [← hlen]; rfl)]
  · have hpos : 0 < vs.length := List.length_pos_iff.2 hv
    refine ⟨rows.take a ++ vs ++ rows.drop b, ?_, ?_, ?_, ?_, ?_⟩
    · unfold setViewPdfvec Val.assign
      dsimp only
      rw [if_pos hlen, if_neg hv]
    · unfold setViewStats Val.assign
      dsimp only
      rw [if_pos hlen, if_neg hv]
    · unfold viewPdfvec Val.index
      dsimp only
      congr 2
      by_cases hb : b ≤ rows.length
      · rw [List.take_append_of_le_length (by simp; omega), List.take_of_length_le (by simp; omega),
          List.drop_append_of_le_length (by simp; omega), List.drop_of_length_le (by simp)]
        rfl
      · rw [List.drop_of_length_le (l := rows) (by omega), List.append_nil, List.take_of_length_le (by simp; omega),
          List.drop_append_of_le_length (by simp; omega), List.drop_of_length_le (by simp)]
        rfl
    · simp
      omega
    · intro j hj
      rcases hj with hj | hj
      · rw [List.append_assoc, List.getElem?_append_left (by simp; omega), List.getElem?_take, if_pos hj]
      · rw [List.getElem?_append_right (by simp; omega), List.getElem?_drop]
        by_cases hb : b ≤ rows.length
        · congr 1
          simp
          omega
        · rw [List.getElem?_eq_none (by omega), List.getElem?_eq_none (by omega)]

/-- Resetting the statistics of an element: the selected rows become zero, for an integer or a slice. -/
theorem C126_zero_partial (z : V) (rows : List V) (pdfvec : Val V) (k : ℤ) (a b : ℕ)
    (hk : -(rows.length : ℤ) ≤ k ∧ k < rows.length) :
    (∃ p, zeroViewStats z ⟨.many rows, pdfvec⟩ (.int k) = .ok p ∧ viewStats p (.int k) = .ok (.one z)) ∧
    (∃ p, zeroViewStats z ⟨.many rows, pdfvec⟩ (.slice a b) = .ok p ∧
      viewStats p (.slice a b) = .ok (.many (List.replicate (min b rows.length - a) z))) := by
  constructor
  · have hi : (if k < 0 then k + (rows.length : ℤ) else k).toNat < rows.length := by split <;> omega
    have hc : (((if k < 0 then k + (rows.length : ℤ) else k).toNat : ℕ) : ℤ) = if k < 0 then k + rows.length else k := by
      split <;> omega
    obtain ⟨rows', h1, h2, -⟩ := C126_stats rows pdfvec k hk z
    refine ⟨_, ?_, h2⟩
    unfold zeroViewStats Val.index
    dsimp only
    rw [rowAt_ok rows k _ hi hc]
    exact h1
  · obtain ⟨rows', -, h1, -, h2, -⟩ := C126_slice rows pdfvec a b (List.replicate (min b rows.length - a) z) (by simp)
    refine ⟨_, ?_, h2⟩
    unfold zeroViewStats Val.index
    dsimp only
    rw [← h1]
    congr 1
    unfold Val.zeros
    dsimp only
    rw [List.map_const']
    congr 2
    simp

/-- The code violates the property for lists of positions: resetting the statistics has no effect. -/
theorem C126_zero_list_no_effect (z : V) (p : SParam V) (ks : List ℤ) (st : Val V)
    (h : viewStats p (.list ks) = .ok st) : zeroViewStats z p (.list ks) = .ok p := by
  unfold viewStats at h
  unfold zeroViewStats
  rw [h]

example : zeroViewStats 0 ⟨.many [1, 2, 3], .many [4, 5, 6]⟩ (.slice 1 3) = .ok ⟨.many [1, 0, 0], .many [4, 5, 6]⟩ ∧
    zeroViewStats 0 ⟨.many [1, 2, 3], .many [4, 5, 6]⟩ (.list [1, 2]) = .ok ⟨.many [1, 2, 3], .many [4, 5, 6]⟩ := by
  decide +kernel

/-- The code violates the property: the natural form of an element, which the likelihoods use, is `None`, whereas
the natural form of the parameter is its pdf-vectors. -/
theorem C126_natural_form_none (p : SParam V) (key : Key) (t : Val V) (h : viewPdfvec p key = .ok t) :
    viewNaturalForm p key = .ok none ∧ paramNaturalForm p = some p.pdfvec := by
  unfold viewNaturalForm
  rw [h]
  exact ⟨rfl, rfl⟩

/-- The code violates the property: the element of an element is taken in the whole parameter. -/
theorem C126_nested_key_dropped (p : SParam V) (old new : Key) :
    viewStats p (viewGetitem old new) = viewStats p new := rfl

/-- The first row of the slice `2:4` is the row 2; the code gives the row 0. -/
example : viewStats ⟨.many [10, 20, 30, 40], .many [0, 0, 0, 0]⟩ (viewGetitem (.slice 2 4) (.int 0)) = .ok (.one 10) ∧
    (∃ t, viewStats ⟨.many [10, 20, 30, 40], .many [0, 0, 0, 0]⟩ (.slice 2 4) = .ok t ∧
      t.index (.int 0) = .ok (.one 30)) := ⟨rfl, .many [30, 40], rfl, rfl⟩

/-! ## C127: several models in one set -/

/-- Sets of parameters with different hashes: every one gets its statistics. -/
theorem C127_distinct_partial (l : List (ℕ × V)) (h : l.Pairwise fun p q => eq p.1 q.1 = false) :
    jointAccumulate l [] = l := by
  have key : ∀ (l acc : List (ℕ × V)), (acc ++ l).Pairwise (fun p q => eq p.1 q.1 = false) →
      jointAccumulate l acc = acc ++ l := by
    intro l
    induction l with
    | nil => intro acc _; simp [jointAccumulate]
    | cons p l ih =>
      intro acc h
      obtain ⟨u, st⟩ := p
      unfold jointAccumulate
      have hno : acc.any (fun p => eq p.1 u) = false := by
        rw [List.any_eq_false]
        intro q hq
        rw [List.pairwise_append] at h
        simp [h.2.2 q hq (u, st) List.mem_cons_self]
      rw [hno]
      simp only [Bool.false_eq_true, if_false]
      rw [ih _ (by simpa using h)]
      simp
  simpa using key l [] (by simpa using h)

/-- The code violates the property for the models `GSM.new_models` makes: they all have the identifier of the
original, so that in one set only the statistics of the last model remain. -/
theorem C127_copies_clash (uuid : ℕ) (stats : List V) (st : V) :
    jointAccumulate ((newModels uuid (stats.length + 1)).zip (stats ++ [st])) [] = [(uuid, st)] := by
  have hz : (newModels uuid (stats.length + 1)).zip (stats ++ [st]) = (stats ++ [st]).map fun x => (uuid, x) := by
    unfold newModels
    rw [List.map_const', List.length_range]
    apply List.ext_getElem
    · simp
    · intro i h1 h2
      rw [List.getElem_map, List.getElem_zip, List.getElem_replicate]
  have key : ∀ (xs : List V) (x : V), jointAccumulate ((xs ++ [st]).map fun x => (uuid, x)) [(uuid, x)] =
      [(uuid, st)] := by
    intro xs
    induction xs with
    | nil => intro x; simp [jointAccumulate, eq]
    | cons y ys ih =>
      intro x
      have := ih y
      simp only [List.cons_append, List.map_cons, jointAccumulate, eq, List.any_cons, List.any_nil, beq_self_eq_true,
        Bool.true_or, if_true, List.map_nil]
      exact this
  rw [hz]
  cases stats with
  | nil => simp [jointAccumulate]
  | cons x xs =>
    have := key xs x
    simp only [List.cons_append, List.map_cons, jointAccumulate, List.any_nil, Bool.false_eq_true, if_false,
      List.nil_append]
    exact this

example : jointAccumulate ((newModels 5 3).zip [10, 20, 30]) [] = [(5, 30)] ∧
    jointAccumulate [(5, 10), (6, 20)] [] = [(5, 10), (6, 20)] := by decide +kernel

end Verif.Props
