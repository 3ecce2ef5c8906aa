import Verif.Model.Recipes
import Verif.Lemmas.Pipeline
import Verif.Lemmas.HInit
import Verif.Lemmas.Eval

/-!
# Lemmas on dictionaries and comprehensions for the recipes
-/

namespace Verif.Recipes

open Verif Pipeline

variable {α β : Type}

/-- The value of a key, if there is one. -/
def optGet [DecidableEq α] (d : List (α × β)) (k : α) : Option β := (dictGet d k).toOption

theorem dictGet_err [DecidableEq α] (d : List (α × β)) (k : α) (e : Err) (h : dictGet d k = .error e) :
    e = .keyError := by
  unfold dictGet at h
  split at h
  · cases h
  · cases h; rfl

theorem optGet_some [DecidableEq α] (d : List (α × β)) (k : α) (v : β) : optGet d k = some v ↔ dictGet d k = .ok v := by
  unfold optGet
  cases h : dictGet d k <;> simp [Except.toOption]

theorem optGet_none [DecidableEq α] (d : List (α × β)) (k : α) :
    optGet d k = none ↔ dictGet d k = .error .keyError := by
  unfold optGet
  cases h : dictGet d k with
  | error e => simp [Except.toOption, dictGet_err d k e h]
  | ok v => simp [Except.toOption]

theorem optGet_set [DecidableEq α] (d : List (α × β)) (k k' : α) (v : β) :
    optGet (dictSet d k v) k' = if k' = k then some v else optGet d k' := by
  unfold optGet
  split
  · rename_i h
    rw [h, HInit.dictGet_set_self]; rfl
  · rename_i h
    rw [HInit.dictGet_set_other _ _ _ _ h]

theorem optGet_isSome [DecidableEq α] (d : List (α × β)) (k : α) : (optGet d k).isSome ↔ k ∈ d.map Prod.fst := by
  constructor
  · intro h
    obtain ⟨v, hv⟩ := Option.isSome_iff_exists.1 h
    exact List.mem_map_of_mem (dictGet_mem d k v ((optGet_some d k v).1 hv))
  · intro h
    cases hg : optGet d k with
    | some v => rfl
    | none =>
      rw [optGet_none] at hg
      exact absurd h (HInit.dictGet_not d k _ hg).2

theorem listComp_forall {f : α → Except Err β} : ∀ {l : List α}, (∀ x ∈ l, ∃ y, f x = .ok y) →
    ∃ ys, Eval.listComp f l = .ok ys ∧ List.Forall₂ (fun x y => f x = .ok y) l ys
  | [], _ => ⟨[], rfl, .nil⟩
  | x :: l, h => by
    obtain ⟨y, hy⟩ := h x (by simp)
    obtain ⟨ys, h1, h2⟩ := listComp_forall (l := l) fun z hz => h z (by simp [hz])
    exact ⟨y :: ys, by simp only [Eval.listComp, hy, h1], .cons hy h2⟩

theorem listComp_forall_of {f : α → Except Err β} : ∀ {l : List α} {ys : List β}, Eval.listComp f l = .ok ys →
    List.Forall₂ (fun x y => f x = .ok y) l ys
  | [], ys, h => by simp only [Eval.listComp, Except.ok.injEq] at h; subst h; exact .nil
  | x :: l, ys, h => by
    simp only [Eval.listComp] at h
    cases hf : f x with
    | error e => rw [hf] at h; cases h
    | ok y =>
      rw [hf] at h
      cases hl : Eval.listComp f l with
      | error e => simp only [hl] at h; cases h
      | ok zs =>
        simp only [hl, Except.ok.injEq] at h
        subst h
        exact .cons hf (listComp_forall_of hl)

end Verif.Recipes
