import Verif.Model.Eval
import Verif.Spec.Eval
import Verif.Lemmas.Pipeline
import Verif.Lemmas.Scoring
import Mathlib.Algebra.BigOperators.Ring.Finset
import Mathlib.Data.Finset.Dedup

namespace Verif.Eval

open Verif Pipeline Scoring EvalSpec

theorem find_lookup {β : Type} (d : List (String × β)) (k : String) :
    (d.find? fun p => p.1 = k) = (d.lookup k).map fun v => (k, v) := by
  induction d with
  | nil => rfl
  | cons p d ih =>
    obtain ⟨a, b⟩ := p
    rw [List.find?_cons, List.lookup_cons]
    by_cases h : a = k
    · subst h; simp
    · have h2 : (k == a) = false := by simpa using fun he : k = a => h he.symm
      simp only [h, decide_false, h2]
      exact ih

theorem dictGet_lookup {β : Type} (d : List (String × β)) (k : String) :
    dictGet d k = match d.lookup k with | some v => .ok v | none => .error .keyError := by
  unfold dictGet
  rw [find_lookup]
  cases d.lookup k <;> rfl

theorem getOr_lookup {β : Type} (d : List (String × β)) (k : String) (v : β) :
    getOr d k v = (d.lookup k).getD v := by
  unfold getOr
  rw [find_lookup]
  cases d.lookup k <;> rfl

theorem lookup_none {β : Type} (d : List (String × β)) (k : String) :
    d.lookup k = none ↔ k ∉ d.map Prod.fst := by
  induction d with
  | nil => simp
  | cons p d ih =>
    obtain ⟨a, b⟩ := p
    rw [List.lookup_cons, List.map_cons, List.mem_cons, not_or]
    by_cases h : k = a
    · subst h; simp
    · have h2 : (k == a) = false := by simpa using h
      rw [h2]
      simp only [ih]
      exact ⟨fun h3 => ⟨h, h3⟩, fun h3 => h3.2⟩

theorem lookup_mem {β : Type} (d : List (String × β)) (k : String) (v : β) (h : d.lookup k = some v) :
    (k, v) ∈ d := by
  induction d with
  | nil => simp at h
  | cons p d ih =>
    obtain ⟨a, b⟩ := p
    rw [List.lookup_cons] at h
    by_cases hk : k = a
    · subst hk; simp at h; subst h; simp
    · have h2 : (k == a) = false := by simpa using hk
      rw [h2] at h
      exact List.mem_cons_of_mem _ (ih h)

theorem lookup_of_mem {β : Type} (d : List (String × β)) (hn : (d.map Prod.fst).Nodup) (k : String) (v : β)
    (h : (k, v) ∈ d) : d.lookup k = some v := by
  have := dictGet_of_mem d k v hn h
  rw [dictGet_lookup] at this
  split at this
  · rename_i h1; rw [h1]; cases this; rfl
  · cases this

theorem lookup_map {β γ : Type} (d : List (String × β)) (f : β → γ) (k : String) :
    (d.map fun p => (p.1, f p.2)).lookup k = (d.lookup k).map f := by
  induction d with
  | nil => rfl
  | cons p d ih =>
    obtain ⟨a, b⟩ := p
    rw [List.map_cons, List.lookup_cons, List.lookup_cons]
    cases k == a
    · exact ih
    · rfl

theorem lookup_append {β : Type} (d e : List (String × β)) (k : String) :
    (d ++ e).lookup k = (d.lookup k).or (e.lookup k) := by
  induction d with
  | nil => rfl
  | cons p d ih =>
    obtain ⟨a, b⟩ := p
    rw [List.cons_append, List.lookup_cons, List.lookup_cons]
    cases k == a
    · exact ih
    · rfl

theorem lookup_dictSet {β : Type} (d : List (String × β)) (k x : String) (v : β) :
    (dictSet d k v).lookup x = if x = k then some v else d.lookup x := by
  unfold dictSet
  split
  · rename_i hk
    induction d with
    | nil => simp at hk
    | cons p d ih =>
      obtain ⟨a, b⟩ := p
      rw [List.map_cons]
      by_cases ha : a = k
      · subst ha
        simp only [if_true]
        rw [List.lookup_cons, List.lookup_cons]
        by_cases hx : x = a
        · subst hx; simp
        · have h2 : (x == a) = false := by simpa using hx
          rw [h2, if_neg hx]
          by_cases hd : a ∈ d.map Prod.fst
          · rw [ih hd, if_neg hx]
          · have he : d.map (fun p => if p.1 = a then (a, v) else p) = d := by
              conv_rhs => rw [← List.map_id d]
              refine List.map_congr_left fun q hq => ?_
              rw [if_neg]
              · rfl
              · rintro rfl; exact hd (List.mem_map_of_mem hq)
            rw [he]
      · simp only [if_neg ha]
        rw [List.lookup_cons, List.lookup_cons]
        have hd : k ∈ d.map Prod.fst := by
          rw [List.map_cons, List.mem_cons] at hk
          exact hk.resolve_left fun h => ha h.symm
        by_cases hx : x = a
        · subst hx; simp [ha]
        · have h2 : (x == a) = false := by simpa using hx
          rw [h2]
          exact ih hd
  · rename_i hk
    rw [lookup_append]
    by_cases hx : x = k
    · subst hx
      rw [(lookup_none d x).2 hk, if_pos rfl]; simp
    · rw [if_neg hx, List.lookup_cons]
      have h2 : (x == k) = false := by simpa using hx
      rw [h2]; simp

/-! ## Loading -/

theorem loadTranscript_eq (lines : List (List String)) (d : Transcript) :
    loadTranscript lines d =
      if [] ∈ lines then .error .indexError
      else .ok (lines.foldl (fun d l => dictSet d (l.headD "") l.tail) d) := by
  induction lines generalizing d with
  | nil => simp [loadTranscript]
  | cons l lines ih =>
    cases l with
    | nil => simp [loadTranscript]
    | cons u ts =>
      rw [loadTranscript, ih]
      simp

theorem foldl_dictSet_lookup (lines : List (List String)) (h : [] ∉ lines) (d : Transcript) (u : String) :
    (lines.foldl (fun d l => dictSet d (l.headD "") l.tail) d).lookup u =
      (saidOf lines u).or (d.lookup u) := by
  induction lines generalizing d with
  | nil => rfl
  | cons l lines ih =>
    rw [List.foldl_cons, ih (fun h2 => h (List.mem_cons_of_mem _ h2)), lookup_dictSet]
    cases l with
    | nil => simp at h
    | cons a ts =>
      unfold saidOf
      rw [List.reverse_cons, List.find?_append]
      cases lines.reverse.find? (fun l => l.head? = some u) with
      | some q => rfl
      | none =>
        by_cases ha : u = a
        · subst ha; simp
        · simp [ha, Ne.symm ha]

theorem foldl_dictSet_nodup (lines : List (List String)) (d : Transcript) (hd : (d.map Prod.fst).Nodup) :
    ((lines.foldl (fun d l => dictSet d (l.headD "") l.tail) d).map Prod.fst).Nodup := by
  induction lines generalizing d with
  | nil => exact hd
  | cons l lines ih => exact ih _ (dictSet_nodup d _ _ hd)

theorem loadMapping_eq (lines : List (List String)) (d : List (String × String)) :
    loadMapping lines d = (lines.filterMap twoFields).foldl
      (fun d p => dictSet d p.1 p.2) d := by
  induction lines generalizing d with
  | nil => rfl
  | cons l lines ih =>
    match l with
    | [] => simp only [loadMapping, ih]; rfl
    | [a] => simp only [loadMapping, ih]; rfl
    | [a, b] => rw [loadMapping, ih]; rfl
    | a :: b :: c :: r => simp only [loadMapping, ih]; rfl

theorem foldl_set_lookup {β : Type} (l : List (String × β)) (d : List (String × β)) (k : String) :
    (l.foldl (fun d p => dictSet d p.1 p.2) d).lookup k = (l.reverse.lookup k).or (d.lookup k) := by
  induction l generalizing d with
  | nil => rfl
  | cons p l ih =>
    rw [List.foldl_cons, ih, lookup_dictSet, List.reverse_cons, lookup_append]
    cases l.reverse.lookup k with
    | some v => rfl
    | none =>
      obtain ⟨a, b⟩ := p
      by_cases h : k = a
      · subst h; simp
      · have h2 : (k == a) = false := by simpa using h
        simp [h, List.lookup_cons, h2]

theorem foldl_set_new {β : Type} (l : List (String × β)) (d : List (String × β))
    (h : ((d ++ l).map Prod.fst).Nodup) :
    l.foldl (fun d p => dictSet d p.1 p.2) d = d ++ l := by
  induction l generalizing d with
  | nil => simp
  | cons p l ih =>
    rw [List.foldl_cons, dictSet_new, ih]
    · simp
    · simpa using h
    · rw [List.map_append, List.nodup_append] at h
      intro hp
      exact h.2.2 _ hp p.1 (by simp) rfl

theorem foldl_set_nodup {β : Type} (l : List (String × β)) (d : List (String × β))
    (hd : (d.map Prod.fst).Nodup) : ((l.foldl (fun d p => dictSet d p.1 p.2) d).map Prod.fst).Nodup := by
  induction l generalizing d with
  | nil => exact hd
  | cons p l ih => exact ih _ (dictSet_nodup d _ _ hd)

/-! ## Mapping -/

theorem mapTokensDrop_eq (m : List (String × String)) (ts tmp : List String) :
    mapTokensDrop m ts tmp = tmp ++ ts.filterMap fun t => m.lookup t := by
  induction ts generalizing tmp with
  | nil => simp [mapTokensDrop]
  | cons t ts ih =>
    rw [mapTokensDrop, dictGet_lookup, List.filterMap_cons]
    cases m.lookup t with
    | none => simp only [ih]
    | some v => simp only [ih]; simp

theorem mapTransDrop_eq (m : List (String × String)) (tr new : Transcript)
    (h : ((new ++ tr).map Prod.fst).Nodup) :
    mapTransDrop m tr new = new ++ tr.map fun p => (p.1, p.2.filterMap fun t => m.lookup t) := by
  induction tr generalizing new with
  | nil => simp [mapTransDrop]
  | cons p tr ih =>
    obtain ⟨u, ts⟩ := p
    have hu : u ∉ new.map Prod.fst := by
      rw [List.map_append, List.nodup_append] at h
      intro hp
      exact h.2.2 _ hp u (by simp) rfl
    rw [mapTransDrop, dictSet_new _ _ _ hu, ih]
    · rw [mapTokensDrop_eq]; simp
    · simpa using h

/-! ## Merging -/

theorem groupbyKeys_destutter (l : List String) (a : String) :
    l.destutter' (· ≠ ·) a = a :: groupbyKeys l (some a) := by
  induction l generalizing a with
  | nil => rfl
  | cons b l ih =>
    rw [List.destutter'_cons, groupbyKeys]
    by_cases h : a = b
    · subst h; simp [ih]
    · rw [if_pos h, if_neg (by simpa using fun he : b = a => h he.symm), ih]

theorem collapse_destutter (l : List String) : collapse l = l.destutter (· ≠ ·) := by
  unfold collapse
  cases l with
  | nil => rfl
  | cons a l =>
    rw [List.destutter_cons', groupbyKeys_destutter, groupbyKeys]
    simp

/-! ## The loops of the rates -/

theorem terLoop_eq (hyp ref : Transcript) (acc : ErrAcc) :
    terLoop hyp ref acc =
      ⟨acc.errs + ((common ref hyp).map fun p => wer p.1 p.2).sum,
       acc.words + ((common ref hyp).map fun p => p.1.length).sum,
       acc.numpy || !(common ref hyp).isEmpty⟩ := by
  induction ref generalizing acc with
  | nil => simp [terLoop, common]
  | cons p ref ih =>
    obtain ⟨u, r⟩ := p
    rw [terLoop, dictGet_lookup]
    unfold common at ih ⊢
    rw [List.filterMap_cons]
    cases hyp.lookup u with
    | none => simp only [ih]; rfl
    | some h =>
      simp only [ih, Option.map_some, List.map_cons, List.sum_cons]
      simp [Nat.add_assoc]

theorem common_prepared (ref hyp : Transcript) (f : List String → List String) :
    common (ref.map fun p => (p.1, f p.2)) (hyp.map fun p => (p.1, f p.2)) =
      (common ref hyp).map fun p => (f p.1, f p.2) := by
  unfold common
  rw [List.filterMap_map, List.map_filterMap]
  congr 1
  funext p
  simp only [Function.comp, lookup_map]
  cases hyp.lookup p.1 <;> rfl

theorem terMain_eq (mapping : Option (List (String × String))) (option : Bool) (ref hyp : Transcript)
    (hr : (ref.map Prod.fst).Nodup) (hh : (hyp.map Prod.fst).Nodup) :
    terMain mapping option ref hyp =
      rate ⟨((common ref hyp).map fun p => wer (prepared mapping option p.1) (prepared mapping option p.2)).sum,
        ((common ref hyp).map fun p => (prepared mapping option p.1).length).sum,
        !(common ref hyp).isEmpty⟩ := by
  have key : terMain mapping option ref hyp =
      rate (terLoop (hyp.map fun p => (p.1, prepared mapping option p.2))
        (ref.map fun p => (p.1, prepared mapping option p.2)) ⟨0, 0, false⟩) := by
    unfold terMain
    have hm : ∀ t : Transcript, mergeTrans t = t.map fun p => (p.1, p.2.destutter (· ≠ ·)) := by
      intro t
      unfold mergeTrans
      simp only [collapse_destutter]
    cases mapping with
    | none =>
      cases option with
      | false => simp [prepared]
      | true => simp [prepared, hm]
    | some m =>
      have h1 := mapTransDrop_eq m ref [] (by simpa using hr)
      have h2 := mapTransDrop_eq m hyp [] (by simpa using hh)
      rw [List.nil_append] at h1 h2
      cases option with
      | false => simp [prepared, h1, h2]
      | true => simp [prepared, h1, h2, hm, List.map_map, Function.comp_def]
  rw [key, terLoop_eq, common_prepared]
  simp [List.map_map, Function.comp_def]

/-! ## `score.py` -/

theorem listComp_ok {α β : Type} (f : α → Except Err β) (g : α → β) (l : List α)
    (h : ∀ x ∈ l, f x = .ok (g x)) : listComp f l = .ok (l.map g) := by
  induction l with
  | nil => rfl
  | cons x l ih =>
    rw [listComp, h x (by simp), ih fun y hy => h y (List.mem_cons_of_mem _ hy)]
    rfl

theorem listComp_error {α β : Type} (f : α → Except Err β) (e : Err) (l : List α)
    (h : ∀ x ∈ l, ∀ e', f x = .error e' → e' = e) (hx : ∃ x ∈ l, ∃ e', f x = .error e') :
    listComp f l = .error e := by
  induction l with
  | nil => simp at hx
  | cons x l ih =>
    rw [listComp]
    cases hf : f x with
    | error e' => rw [h x (by simp) e' hf]
    | ok y =>
      dsimp only
      rw [ih fun z hz => h z (List.mem_cons_of_mem _ hz)]
      obtain ⟨z, hz, e', he⟩ := hx
      rw [List.mem_cons] at hz
      rcases hz with rfl | hz
      · rw [hf] at he; cases he
      · exact ⟨z, hz, e', he⟩

theorem mapRemove_ok (m : List (String × String)) (out : List String) (text : List String)
    (h : ∀ t ∈ text, t ∉ out → m.lookup t ≠ none) :
    mapRemove m out text =
      .ok ((text.filter fun t => t ∉ out).filterMap fun t => (m.lookup t).filter fun p => p ∉ out) := by
  induction text with
  | nil => rfl
  | cons t text ih =>
    rw [mapRemove]
    have ih := ih fun s hs => h s (List.mem_cons_of_mem _ hs)
    by_cases ht : t ∈ out
    · rw [if_neg (not_not.2 ht), ih, List.filter_cons_of_neg (by simpa using ht)]
    · rw [if_pos ht, dictGet_lookup, List.filter_cons_of_pos (by simpa using ht)]
      cases hl : m.lookup t with
      | none => exact absurd hl (h t (by simp) ht)
      | some v =>
        rw [ih]
        dsimp only
        rw [List.filterMap_cons, hl]
        by_cases hv : v ∈ out
        · simp [hv, Option.filter]
        · simp [hv, Option.filter]

theorem mapRemove_error (m : List (String × String)) (out : List String) (text : List String)
    (h : ∃ t ∈ text, t ∉ out ∧ m.lookup t = none) : mapRemove m out text = .error .keyError := by
  induction text with
  | nil => simp at h
  | cons t text ih =>
    rw [mapRemove]
    by_cases hrest : ∃ t ∈ text, t ∉ out ∧ m.lookup t = none
    · rw [ih hrest, dictGet_lookup]
      cases m.lookup t <;> simp
    · obtain ⟨s, hs, h1, h2⟩ := h
      rw [List.mem_cons] at hs
      rcases hs with rfl | hs
      · rw [if_pos h1, dictGet_lookup, h2]
      · exact absurd ⟨s, hs, h1, h2⟩ hrest

theorem filterText_ok (remove : Option (List String)) (duplicate : String)
    (phoneMap : Option (List (String × String))) (text : List String) (h : Mapped remove phoneMap text) :
    filterText remove duplicate phoneMap text = .ok (scored remove duplicate phoneMap text) := by
  have key : ∀ t : List String, (if duplicate = "no" then dedup t else t) =
      if duplicate = "no" then t.destutter (· ≠ ·) else t := by
    intro t
    rw [dedup_eq_collapse, collapse_destutter]
  unfold filterText scored
  cases phoneMap with
  | none =>
    cases remove with
    | none => simp [key]
    | some r => simp only [key, Option.getD_some]
  | some m =>
    cases remove with
    | none =>
      have h1 : listComp (dictGet m) text = .ok (text.map fun t => (m.lookup t).getD "") := by
        refine listComp_ok _ _ _ fun t ht => ?_
        rw [dictGet_lookup]
        cases hl : m.lookup t with
        | none => exact absurd hl (h m rfl t ht (by simp))
        | some v => rfl
      have h2 : (text.filterMap fun t => m.lookup t) = text.map fun t => (m.lookup t).getD "" := by
        rw [← List.filterMap_eq_map]
        refine List.filterMap_congr fun t ht => ?_
        cases hl : m.lookup t with
        | none => exact absurd hl (h m rfl t ht (by simp))
        | some v => simp [hl]
      have h3 : ∀ o : Option String, (o.filter fun _ => true) = o := by
        intro o; cases o <;> rfl
      simp only [h1, key]
      simp [h2, h3]
    | some r =>
      simp only [mapRemove_ok m r text (h m rfl), key, Option.getD_some]

theorem filterText_error (remove : Option (List String)) (duplicate : String)
    (phoneMap : Option (List (String × String))) (text : List String) (h : ¬ Mapped remove phoneMap text) :
    filterText remove duplicate phoneMap text = .error .keyError := by
  unfold Mapped at h
  push Not at h
  obtain ⟨m, rfl, t, ht, h1, h2⟩ := h
  unfold filterText
  cases remove with
  | none =>
    have h3 : listComp (dictGet m) text = .error .keyError := by
      refine listComp_error _ _ _ (fun x _ e' he => ?_) ⟨t, ht, .keyError, ?_⟩
      · rw [dictGet_lookup] at he
        cases hl : m.lookup x with
        | none => rw [hl] at he; cases he; rfl
        | some v => rw [hl] at he; cases he
      · rw [dictGet_lookup, h2]
    simp only [h3]
  | some r => simp only [mapRemove_error m r text ⟨t, ht, h1, h2⟩]

theorem insertionSort_eq_iff (a b : List String) :
    a.insertionSort (· ≤ ·) = b.insertionSort (· ≤ ·) ↔ a.Perm b := by
  constructor
  · intro h
    exact (List.perm_insertionSort (· ≤ ·) a).symm.trans (h ▸ List.perm_insertionSort (· ≤ ·) b)
  · intro h
    refine List.Perm.eq_of_pairwise' (r := (· ≤ ·)) ?_ ?_ ?_
    · exact List.pairwise_insertionSort _ _
    · exact List.pairwise_insertionSort _ _
    · exact (List.perm_insertionSort (· ≤ ·) a).trans (h.trans (List.perm_insertionSort (· ≤ ·) b).symm)

/-! ## Overlaps -/

/-- The count of a pair in the nested dictionaries. -/
def cnt (c : Counts) (u p : String) : ℕ := (((c.lookup u).getD []).lookup p).getD 0

theorem cnt_bump (c : Counts) (h r u p : String) :
    cnt (bump c h r) u p = cnt c u p + if u = h ∧ p = r then 1 else 0 := by
  unfold bump cnt
  dsimp only
  rw [lookup_dictSet]
  by_cases hu : u = h
  · subst hu
    rw [if_pos rfl, Option.getD_some, lookup_dictSet, getOr_lookup, getOr_lookup]
    by_cases hp : p = r
    · subst hp; simp
    · simp [hp]
  · rw [if_neg hu]
    simp [hu]

theorem cnt_foldl (ps : List (String × String)) (c : Counts) (u p : String) :
    cnt (ps.foldl (fun c x => bump c x.2 x.1) c) u p =
      cnt c u p + ps.countP fun x => x.2 = u ∧ x.1 = p := by
  induction ps generalizing c with
  | nil => simp
  | cons x ps ih =>
    rw [List.foldl_cons, ih, cnt_bump, List.countP_cons, Nat.add_assoc]
    congr 1
    rw [Nat.add_comm]
    congr 1
    by_cases h : x.2 = u ∧ x.1 = p
    · obtain ⟨rfl, rfl⟩ := h; simp
    · rw [if_neg, if_neg]
      · simpa using h
      · rintro ⟨rfl, rfl⟩; exact h ⟨rfl, rfl⟩

/-- Keys are unique at both levels and no inner dictionary is empty. -/
structure CountsInv (c : Counts) : Prop where
  outer : (c.map Prod.fst).Nodup
  inner : ∀ x ∈ c, (x.2.map Prod.fst).Nodup ∧ x.2 ≠ []

theorem dictSet_ne_nil {β : Type} (d : List (String × β)) (k : String) (v : β) : dictSet d k v ≠ [] := by
  intro h
  have := lookup_dictSet d k k v
  rw [h, if_pos rfl] at this
  simp at this

theorem bump_inv (c : Counts) (h r : String) (hc : CountsInv c) : CountsInv (bump c h r) := by
  refine ⟨dictSet_nodup _ _ _ hc.outer, fun x hx => ?_⟩
  rcases dictSet_mem _ _ _ _ hx with hx | rfl
  · exact hc.inner x hx
  · refine ⟨dictSet_nodup _ _ _ ?_, dictSet_ne_nil _ _ _⟩
    rw [getOr_lookup]
    cases hl : c.lookup h with
    | none => simp
    | some d => exact (hc.inner _ (lookup_mem c h d hl)).1

theorem bump_keys (c : Counts) (h r u : String) :
    u ∈ (bump c h r).map Prod.fst ↔ u = h ∨ u ∈ c.map Prod.fst := by
  unfold bump
  dsimp only
  rw [dictSet_keys]
  split
  · rename_i hk
    exact ⟨Or.inr, fun hu => hu.elim (fun he => he ▸ hk) id⟩
  · rw [List.mem_append, List.mem_singleton]; exact or_comm

theorem foldl_bump_inv (ps : List (String × String)) (c : Counts) (hc : CountsInv c) :
    CountsInv (ps.foldl (fun c x => bump c x.2 x.1) c) := by
  induction ps generalizing c with
  | nil => exact hc
  | cons x ps ih => exact ih _ (bump_inv c _ _ hc)

theorem foldl_bump_keys (ps : List (String × String)) (c : Counts) (u : String) :
    u ∈ (ps.foldl (fun c x => bump c x.2 x.1) c).map Prod.fst ↔
      u ∈ c.map Prod.fst ∨ ∃ x ∈ ps, x.2 = u := by
  induction ps generalizing c with
  | nil => simp
  | cons x ps ih =>
    rw [List.foldl_cons, ih, bump_keys]
    simp only [List.mem_cons, exists_eq_or_imp]
    tauto

theorem overlapCounts_eq (hyp ref : Transcript) (c : Counts)
    (h : ∀ p ∈ ref, hyp.lookup p.1 ≠ none) :
    overlapCounts hyp ref c = .ok ((framePairs ref hyp).foldl (fun c x => bump c x.2 x.1) c) := by
  induction ref generalizing c with
  | nil => rfl
  | cons p ref ih =>
    obtain ⟨u, r⟩ := p
    rw [overlapCounts, dictGet_lookup]
    cases hl : hyp.lookup u with
    | none => exact absurd hl (h (u, r) (by simp))
    | some hs =>
      dsimp only
      rw [ih _ fun q hq => h q (List.mem_cons_of_mem _ hq), ← List.foldl_append]
      congr 1
      unfold framePairs common
      rw [List.filterMap_cons, hl]
      simp

theorem overlapCounts_error (hyp ref : Transcript) (c : Counts)
    (h : ∃ p ∈ ref, hyp.lookup p.1 = none) : overlapCounts hyp ref c = .error .keyError := by
  induction ref generalizing c with
  | nil => simp at h
  | cons p ref ih =>
    obtain ⟨u, r⟩ := p
    rw [overlapCounts, dictGet_lookup]
    cases hl : hyp.lookup u with
    | none => rfl
    | some hs =>
      dsimp only
      refine ih _ ?_
      obtain ⟨q, hq, h1⟩ := h
      rw [List.mem_cons] at hq
      rcases hq with rfl | hq
      · rw [hl] at h1; cases h1
      · exact ⟨q, hq, h1⟩

theorem foldl_max (ps : List (String × ℕ)) (p : String × ℕ) :
    let b := ps.foldl (fun best q => if best.2 < q.2 then q else best) p
    (b = p ∨ b ∈ ps) ∧ p.2 ≤ b.2 ∧ ∀ q ∈ ps, q.2 ≤ b.2 := by
  induction ps generalizing p with
  | nil => simp
  | cons a ps ih =>
    rw [List.foldl_cons]
    obtain ⟨h1, h2, h3⟩ := ih (if p.2 < a.2 then a else p)
    refine ⟨?_, ?_, ?_⟩
    · rcases h1 with h1 | h1
      · rw [h1]
        split
        · exact Or.inr (by simp)
        · exact Or.inl rfl
      · exact Or.inr (List.mem_cons_of_mem _ h1)
    · refine le_trans ?_ h2
      split <;> omega
    · intro q hq
      rw [List.mem_cons] at hq
      rcases hq with rfl | hq
      · refine le_trans ?_ h2
        split <;> omega
      · exact h3 q hq

theorem maxKey_spec (d : List (String × ℕ)) (h : d ≠ []) :
    ∃ b ∈ d, maxKey d = .ok b.1 ∧ ∀ q ∈ d, q.2 ≤ b.2 := by
  cases d with
  | nil => exact absurd rfl h
  | cons p ps =>
    obtain ⟨h1, h2, h3⟩ := foldl_max ps p
    refine ⟨_, ?_, rfl, ?_⟩
    · rcases h1 with h1 | h1
      · rw [h1]; simp
      · exact List.mem_cons_of_mem _ h1
    · intro q hq
      rw [List.mem_cons] at hq
      rcases hq with rfl | hq
      · exact h2
      · exact h3 q hq

theorem overlapMapping_spec (c : Counts) (hc : CountsInv c) :
    ∃ M, overlapMapping c = .ok M ∧ M.map Prod.fst = c.map Prod.fst ∧
      ∀ u k, M.lookup u = some k → ∀ p, cnt c u p ≤ cnt c u k := by
  have hex : ∀ x ∈ c, ∃ k, maxKey x.2 = .ok k ∧ ∀ p, cnt c x.1 p ≤ cnt c x.1 k := by
    intro x hx
    obtain ⟨h1, h2⟩ := hc.inner x hx
    obtain ⟨b, hb, h3, h4⟩ := maxKey_spec x.2 h2
    refine ⟨b.1, h3, fun p => ?_⟩
    unfold cnt
    rw [lookup_of_mem c hc.outer x.1 x.2 hx, Option.getD_some, lookup_of_mem x.2 h1 b.1 b.2 hb]
    cases hl : x.2.lookup p with
    | none => simp
    | some n => exact h4 _ (lookup_mem _ _ _ hl)
  let g : String × List (String × ℕ) → String × String := fun x =>
    (x.1, match maxKey x.2 with | .ok k => k | .error _ => "")
  refine ⟨c.map g, ?_, ?_, ?_⟩
  · refine listComp_ok _ _ _ fun x hx => ?_
    obtain ⟨k, hk, -⟩ := hex x hx
    simp only [g, hk]
  · rw [List.map_map]; rfl
  · intro u k hl p
    have hm := lookup_mem _ _ _ hl
    obtain ⟨x, hx, he⟩ := List.mem_map.1 hm
    obtain ⟨k', hk, h5⟩ := hex x hx
    simp only [g, hk, Prod.mk.injEq] at he
    obtain ⟨rfl, rfl⟩ := he
    exact h5 p

theorem countP_units (ps : List (String × String)) (g : String → String) (S : Finset String)
    (hS : ∀ x ∈ ps, x.2 ∈ S) :
    (ps.countP fun x => g x.2 = x.1) = ∑ u ∈ S, ps.countP fun x => x.2 = u ∧ x.1 = g u := by
  induction ps with
  | nil => simp
  | cons x ps ih =>
    simp only [List.countP_cons]
    rw [Finset.sum_add_distrib, ih fun y hy => hS y (List.mem_cons_of_mem _ hy)]
    congr 1
    have h1 : ∀ u ∈ S, (if decide (x.2 = u ∧ x.1 = g u) = true then 1 else 0) =
        if u = x.2 then (if g x.2 = x.1 then 1 else 0) else 0 := by
      intro u _
      by_cases hu : u = x.2
      · subst hu
        by_cases hg : g x.2 = x.1
        · simp [hg]
        · simp [hg, Ne.symm hg]
      · rw [if_neg hu, if_neg]
        simp only [decide_eq_true_eq]
        exact fun h => hu h.1.symm
    rw [Finset.sum_congr rfl h1, Finset.sum_ite_eq' S x.2, if_pos (hS x (by simp))]
    simp

theorem mapTokens_ok (m : List (String × String)) (unk : String) (f : String → String) (ts tmp : List String)
    (h : ∀ t ∈ ts, m.lookup t = some (f t) ∨ (m.lookup t = none ∧ unk ≠ "" ∧ f t = unk)) :
    mapTokens m unk ts tmp = .ok (tmp ++ ts.map f) := by
  induction ts generalizing tmp with
  | nil => simp [mapTokens]
  | cons t ts ih =>
    have ih := fun tmp => ih tmp fun s hs => h s (List.mem_cons_of_mem _ hs)
    rw [mapTokens, dictGet_lookup]
    rcases h t (by simp) with h1 | ⟨h1, h2, h3⟩
    · rw [h1]
      simp [ih]
    · rw [h1]
      simp [h2, h3, ih]

theorem mapTokens_error (m : List (String × String)) (ts tmp : List String)
    (h : ∃ t ∈ ts, m.lookup t = none) : mapTokens m "" ts tmp = .error .keyError := by
  induction ts generalizing tmp with
  | nil => simp at h
  | cons t ts ih =>
    rw [mapTokens, dictGet_lookup]
    cases hl : m.lookup t with
    | none => simp
    | some v =>
      dsimp only
      refine ih _ ?_
      obtain ⟨s, hs, h1⟩ := h
      rw [List.mem_cons] at hs
      rcases hs with rfl | hs
      · rw [hl] at h1; cases h1
      · exact ⟨s, hs, h1⟩

theorem mapTransUnk_ok (m : List (String × String)) (unk : String) (f : String → String) (tr new : Transcript)
    (hn : ((new ++ tr).map Prod.fst).Nodup)
    (h : ∀ p ∈ tr, ∀ t ∈ p.2, m.lookup t = some (f t) ∨ (m.lookup t = none ∧ unk ≠ "" ∧ f t = unk)) :
    mapTransUnk m unk tr new = .ok (new ++ tr.map fun p => (p.1, p.2.map f)) := by
  induction tr generalizing new with
  | nil => simp [mapTransUnk]
  | cons p tr ih =>
    obtain ⟨u, ts⟩ := p
    have hu : u ∉ new.map Prod.fst := by
      rw [List.map_append, List.nodup_append] at hn
      intro hp
      exact hn.2.2 _ hp u (by simp) rfl
    rw [mapTransUnk, mapTokens_ok m unk f ts [] (h (u, ts) (by simp))]
    dsimp only
    rw [dictSet_new _ _ _ hu, ih]
    · simp
    · simpa using hn
    · exact fun q hq => h q (List.mem_cons_of_mem _ hq)

theorem mapTransUnk_error (m : List (String × String)) (tr new : Transcript)
    (h : ∃ p ∈ tr, ∃ t ∈ p.2, m.lookup t = none) : mapTransUnk m "" tr new = .error .keyError := by
  induction tr generalizing new with
  | nil => simp at h
  | cons p tr ih =>
    obtain ⟨u, ts⟩ := p
    rw [mapTransUnk]
    by_cases hts : ∃ t ∈ ts, m.lookup t = none
    · rw [mapTokens_error m ts [] hts]
    · obtain ⟨q, hq, t, ht, h1⟩ := h
      rw [List.mem_cons] at hq
      rcases hq with rfl | hq
      · exact absurd ⟨t, ht, h1⟩ hts
      · rw [mapTokens_ok m "" (fun t => (m.lookup t).getD "") ts [] fun s hs => ?_]
        · exact ih _ ⟨q, hq, t, ht, h1⟩
        · cases hl : m.lookup s with
          | none => exact absurd ⟨s, hs, hl⟩ hts
          | some v => exact Or.inl rfl

end Verif.Eval
