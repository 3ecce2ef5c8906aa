import Verif.Model.Commands
import Verif.Spec.Inference
import Mathlib.Algebra.BigOperators.Group.List.Lemmas
import Mathlib.Tactic.Abel
import Mathlib.Tactic.Ring
import Mathlib.Tactic.Module

/-! # Helper lemmas on objectives and optimizers -/

namespace Verif

open Spec

variable {F V X ι : Type}

attribute [ext] Elbo

/-- Sum without the data size check. -/
def Elbo.plus [Add F] [Add V] (e1 e2 : Elbo F V) : Elbo F V :=
  { value := e1.value + e2.value
    isTensor := e1.isTensor || e2.isTensor
    acc := addAcc e1.acc e2.acc
    params := e1.params ∪ e2.params
    mb := e1.mb + e2.mb
    datasize := e1.datasize }

theorem add_eq [Add F] [Add V] (e1 e2 : Elbo F V) :
    e1.add (.elbo e2)
      = if e1.datasize = e2.datasize then .ok (e1.plus e2) else .error .valueError := by
  by_cases h : e1.datasize = e2.datasize <;> simp [Elbo.add, Elbo.plus, h]

theorem addAcc_assoc [AddSemigroup V] (a b c : Acc V) :
    addAcc (addAcc a b) c = addAcc a (addAcc b c) := by
  funext k
  simp only [addAcc]
  cases a k <;> cases b k <;> cases c k <;> simp [add_assoc]

theorem addAcc_none_left [Add V] (a : Acc V) : addAcc (fun _ => none) a = a := by
  funext k; simp only [addAcc]; cases a k <;> simp

theorem addAcc_none_right [Add V] (a : Acc V) : addAcc a (fun _ => none) = a := by
  funext k; simp only [addAcc]; cases a k <;> simp

theorem plus_assoc [Field F] [AddCommMonoid V] (a b c : Elbo F V) :
    (a.plus b).plus c = a.plus (b.plus c) := by
  ext1
  · simp [Elbo.plus, add_assoc]
  · simp [Elbo.plus, Bool.or_assoc]
  · simp [Elbo.plus, addAcc_assoc]
  · simp [Elbo.plus, Finset.union_assoc]
  · simp [Elbo.plus, add_assoc]
  · simp [Elbo.plus]

theorem optSum_nil [AddCommMonoid V] : optSum ([] : List (Option V)) = none := by simp [optSum]

theorem optSum_cons [AddCommMonoid V] (o : Option V) (l : List (Option V)) :
    optSum (o :: l) = match o, optSum l with
      | some a, some b => some (a + b)
      | some a, none => some a
      | none, some b => some b
      | none, none => none := by
  by_cases h : ∃ o ∈ l, o.isSome
  · cases o with
    | none => simp [optSum, h]
    | some a => simp [optSum, h]
  · have hz : (l.map (fun o => o.getD 0)).sum = 0 := by
      apply List.sum_eq_zero
      intro x hx
      obtain ⟨o, ho, rfl⟩ := List.mem_map.1 hx
      cases o with
      | none => rfl
      | some a => exact absurd ⟨some a, ho, rfl⟩ h
    cases o with
    | none => simp [optSum, h]
    | some a => simp [optSum, h, hz]

theorem optSum_perm [AddCommMonoid V] {l l' : List (Option V)} (h : l.Perm l') :
    optSum l = optSum l' := by
  have h1 : (∃ o ∈ l, o.isSome) ↔ ∃ o ∈ l', o.isSome := by simp [h.mem_iff]
  simp only [optSum, h1, (h.map (fun o : Option V => o.getD 0)).sum_eq]

theorem total_nil [Field F] [AddCommMonoid V] (ds : ℤ) :
    total ds ([] : List (Elbo F V)) = Elbo.empty ds := by
  ext1 <;> simp [total, Elbo.empty, optSum_nil]

theorem total_cons [Field F] [AddCommMonoid V] (ds : ℤ) (e : Elbo F V) (es : List (Elbo F V))
    (he : e.datasize = ds) : total ds (e :: es) = e.plus (total ds es) := by
  ext1
  · simp [total, Elbo.plus]
  · simp [total, Elbo.plus]
  · funext k
    simp only [total, Elbo.plus, addAcc, List.map_cons, optSum_cons]
    cases e.acc k <;> cases optSum (es.map fun e => e.acc k) <;> rfl
  · simp [total, Elbo.plus]
  · simp [total, Elbo.plus]
  · simp [total, Elbo.plus, he]

theorem plus_empty [Field F] [AddCommMonoid V] (e : Elbo F V) (ds : ℤ) :
    e.plus (Elbo.empty ds) = e := by
  ext1 <;> simp [Elbo.plus, Elbo.empty, addAcc_none_right]

theorem empty_plus [Field F] [AddCommMonoid V] (e : Elbo F V) :
    (Elbo.empty e.datasize).plus e = e := by
  ext1 <;> simp [Elbo.plus, Elbo.empty, addAcc_none_left]

theorem total_perm [Field F] [AddCommMonoid V] (ds : ℤ) {es es' : List (Elbo F V)}
    (h : es.Perm es') : total ds es = total ds es' := by
  have hp : ∀ {l l' : List (Elbo F V)}, l.Perm l' →
      l.foldr (fun e s => e.params ∪ s) ∅ = l'.foldr (fun e s => e.params ∪ s) ∅ := by
    intro l l' h
    induction h with
    | nil => rfl
    | cons x _ ih => simp [ih]
    | swap x y l => simp [Finset.union_left_comm]
    | trans _ _ h1 h2 => exact h1.trans h2
  ext1
  · exact (h.map _).sum_eq
  · rw [Bool.eq_iff_iff]; simp only [total, List.any_eq_true, h.mem_iff]
  · funext k; exact optSum_perm (h.map _)
  · exact hp h
  · exact (h.map _).sum_eq
  · rfl

/-- Closed form of a run of `+=`. -/
theorem foldlM_add [Field F] [AddCommMonoid V] (es : List (Elbo F V)) (e0 : Elbo F V) :
    es.foldlM (fun acc e => acc.add (.elbo e)) e0
      = if ∀ e ∈ es, e.datasize = e0.datasize then .ok (e0.plus (total e0.datasize es))
        else .error .valueError := by
  induction es generalizing e0 with
  | nil => simp [total_nil, plus_empty, pure, Except.pure]
  | cons e es ih =>
    rw [List.foldlM_cons, add_eq]
    by_cases h : e0.datasize = e.datasize
    · simp only [h, if_true, bind, Except.bind]
      rw [ih]
      have hd : (e0.plus e).datasize = e.datasize := by simp [Elbo.plus, h]
      rw [hd]
      simp only [List.mem_cons, forall_eq_or_imp, true_and]
      rw [total_cons _ e es rfl, plus_assoc]
    · have h' : ¬ ∀ x ∈ e :: es, x.datasize = e0.datasize := by
        intro hh; exact h (hh e (by simp)).symm
      simp only [h, h', if_false, bind, Except.bind]

theorem total_datasize [Field F] [AddCommMonoid V] (ds : ℤ) (es : List (Elbo F V)) :
    (total ds es).datasize = ds := rfl

theorem accumulateJob_eq [Field F] [AddCommMonoid V] (ds : ℤ) (es : List (Elbo F V)) :
    accumulateJob ds es
      = if ∀ e ∈ es, e.datasize = ds then .ok (total ds es) else .error .valueError := by
  have h := foldlM_add es (Elbo.empty (F := F) (V := V) ds)
  have h2 : (Elbo.empty ds).plus (total ds es) = total ds es := empty_plus (total ds es)
  rw [accumulateJob, h]
  exact if_congr Iff.rfl (congrArg _ h2) rfl

theorem total_append [Field F] [AddCommMonoid V] (ds : ℤ) (es es' : List (Elbo F V))
    (h : ∀ e ∈ es, e.datasize = ds) :
    total ds (es ++ es') = (total ds es).plus (total ds es') := by
  induction es with
  | nil => rw [List.nil_append, total_nil]; exact (empty_plus (total ds es')).symm
  | cons e es ih =>
    rw [List.cons_append, total_cons _ _ _ (h e (by simp)), total_cons _ _ _ (h e (by simp)),
      ih (fun x hx => h x (by simp [hx])), plus_assoc]

theorem total_map_total [Field F] [AddCommMonoid V] (ds : ℤ) (jobs : List (List (Elbo F V)))
    (h : ∀ j ∈ jobs, ∀ e ∈ j, e.datasize = ds) :
    total ds (jobs.map (total ds)) = total ds jobs.flatten := by
  induction jobs with
  | nil => rfl
  | cons j js ih =>
    rw [List.map_cons, List.flatten_cons, total_cons ds (total ds j) _ (total_datasize ds j),
      ih (fun j' hj => h j' (by simp [hj])), total_append _ _ _ (h j (by simp))]

theorem mergeJobs_eq [Field F] [AddCommMonoid V] (e : Elbo F V) (es : List (Elbo F V)) :
    mergeJobs (e :: es)
      = if ∀ x ∈ es, x.datasize = e.datasize then .ok (total e.datasize (e :: es))
        else .error .valueError := by
  rw [mergeJobs, foldlM_add, total_cons _ _ _ rfl]

/-- All the jobs succeed, or one fails with a `ValueError`. -/
theorem mapM_accumulateJob [Field F] [AddCommMonoid V] (ds : ℤ) (jobs : List (List (Elbo F V))) :
    jobs.mapM (accumulateJob ds)
      = if ∀ j ∈ jobs, ∀ e ∈ j, e.datasize = ds then .ok (jobs.map (total ds))
        else .error .valueError := by
  induction jobs with
  | nil => simp [pure, Except.pure]
  | cons j js ih =>
    rw [List.mapM_cons, accumulateJob_eq, ih]
    by_cases h1 : ∀ e ∈ j, e.datasize = ds
    · by_cases h2 : ∀ j' ∈ js, ∀ e ∈ j', e.datasize = ds
      · have h3 : ∀ j' ∈ j :: js, ∀ e ∈ j', e.datasize = ds := by
          intro j' hj'
          rcases List.mem_cons.1 hj' with rfl | hj'
          · exact h1
          · exact h2 j' hj'
        simp only [if_pos h1, if_pos h2, if_pos h3, bind, Except.bind, pure, Except.pure,
          List.map_cons]
      · have h3 : ¬ ∀ j' ∈ j :: js, ∀ e ∈ j', e.datasize = ds :=
          fun hh => h2 fun j' hj' => hh j' (List.mem_cons_of_mem _ hj')
        simp only [if_pos h1, if_neg h2, if_neg h3, bind, Except.bind]
    · have h3 : ¬ ∀ j' ∈ j :: js, ∀ e ∈ j', e.datasize = ds :=
        fun hh => h1 (hh j List.mem_cons_self)
      simp only [if_neg h1, if_neg h3, bind, Except.bind]

/-! ## Optimizer -/

theorem foldl_set_notMem (f : Param V → Param V) (l : List ℕ) (h : Heap V) (i : ℕ) (hi : i ∉ l) :
    (l.foldl (fun h p => h.set p (f (h p))) h) i = h i := by
  induction l generalizing h with
  | nil => rfl
  | cons p l ih =>
    simp only [List.mem_cons, not_or] at hi
    rw [List.foldl_cons, ih _ hi.2]
    simp [Heap.set, hi.1]

theorem foldl_set_mem (f : Param V → Param V) (l : List ℕ) (h : Heap V) (i : ℕ) (hi : i ∈ l)
    (hn : l.Nodup) : (l.foldl (fun h p => h.set p (f (h p))) h) i = f (h i) := by
  induction l generalizing h with
  | nil => simp at hi
  | cons p l ih =>
    rw [List.foldl_cons]
    rw [List.nodup_cons] at hn
    rcases List.mem_cons.1 hi with rfl | hi'
    · rw [foldl_set_notMem _ _ _ _ hn.1]; simp [Heap.set]
    · rw [ih _ hi' hn.2]
      have : i ≠ p := by rintro rfl; exact hn.1 hi'
      simp [Heap.set, this]

theorem foldl_set_idem (f : Param V → Param V) (hf : ∀ p, f (f p) = f p) (l : List ℕ) (h : Heap V)
    (i : ℕ) (hi : i ∈ l) : (l.foldl (fun h p => h.set p (f (h p))) h) i = f (h i) := by
  induction l generalizing h with
  | nil => simp at hi
  | cons p l ih =>
    rw [List.foldl_cons]
    by_cases hl : i ∈ l
    · rw [ih _ hl]
      by_cases hp : i = p
      · subst hp; simp [Heap.set, hf]
      · simp [Heap.set, hp]
    · rw [foldl_set_notMem _ _ _ _ hl]
      have : i = p := by simpa [hl] using hi
      subst this; simp [Heap.set]

theorem initStep_apply [Zero V] (o : CjgOptim F) (h : Heap V) (i : ℕ) :
    o.initStep h i = if i ∈ o.groups.flatten then (h i).zeroStats else h i := by
  have e : ∀ (gs : List (List ℕ)) (h : Heap V),
      gs.foldl (fun h group => group.foldl (fun h p => h.set p (h p).zeroStats) h) h
        = gs.flatten.foldl (fun h p => h.set p (h p).zeroStats) h := by
    intro gs
    induction gs with
    | nil => intro h; rfl
    | cons g gs ih => intro h; rw [List.foldl_cons, List.flatten_cons, List.foldl_append, ih]
  rw [CjgOptim.initStep, e]
  split
  · rename_i hi
    exact foldl_set_idem Param.zeroStats (fun _ => rfl) _ _ _ hi
  · rename_i hi
    exact foldl_set_notMem Param.zeroStats _ _ _ hi

end Verif
