import Mathlib.Data.List.Forall2

/-! # `mapM` in the exception monad -/

namespace Verif

variable {α β ε : Type}

theorem mapM_cons_eq (f : α → Except ε β) (a : α) (l : List α) : (a :: l).mapM f =
    match f a with
    | .error e => .error e
    | .ok b =>
      match l.mapM f with
      | .error e => .error e
      | .ok bs => .ok (b :: bs) := by
  rw [List.mapM_cons]
  cases f a with
  | error e => rfl
  | ok b => cases l.mapM f with
    | error e => rfl
    | ok bs => rfl

theorem mapM_ok_iff (f : α → Except ε β) : ∀ (l : List α) (out : List β),
    l.mapM f = .ok out ↔ List.Forall₂ (fun a b => f a = .ok b) l out := by
  intro l
  induction l with
  | nil =>
    intro out
    rw [List.forall₂_nil_left_iff]
    constructor
    · intro h; exact (Except.ok.inj h).symm
    · rintro rfl; rfl
  | cons a l ih =>
    intro out
    rw [mapM_cons_eq, List.forall₂_cons_left_iff]
    cases hf : f a with
    | error e =>
      constructor
      · intro h; cases h
      · rintro ⟨b, u, h, _⟩; cases h
    | ok b =>
      cases hm : l.mapM f with
      | error e =>
        constructor
        · intro h; cases h
        · rintro ⟨b', u, h1, h2, _⟩
          rw [← ih, hm] at h2; cases h2
      | ok bs =>
        constructor
        · intro h
          exact ⟨b, bs, rfl, (ih bs).mp hm, (Except.ok.inj h).symm⟩
        · rintro ⟨b', u, h1, h2, rfl⟩
          rw [← ih, hm] at h2
          rw [Except.ok.inj h1, Except.ok.inj h2]

theorem mapM_ok_map (f : α → Except ε β) (g : α → β) (l : List α) (h : ∀ a ∈ l, f a = .ok (g a)) :
    l.mapM f = .ok (l.map g) := by
  rw [mapM_ok_iff, List.forall₂_map_right_iff]
  exact List.forall₂_same.mpr h

theorem mapM_error_of (f : α → Except ε β) (e : ε) : ∀ (l : List α),
    (∀ a ∈ l, ∀ e', f a = .error e' → e' = e) → (∃ a ∈ l, f a = .error e) → l.mapM f = .error e := by
  intro l
  induction l with
  | nil => rintro _ ⟨a, ha, _⟩; cases ha
  | cons a l ih =>
    intro hall hex
    rw [mapM_cons_eq]
    cases hf : f a with
    | error e' => rw [hall a (by simp) e' hf]
    | ok b =>
      obtain ⟨a', ha', he⟩ := hex
      rcases List.mem_cons.mp ha' with rfl | ha'
      · rw [hf] at he; cases he
      · dsimp only
        rw [ih (fun x hx => hall x (by simp [hx])) ⟨a', ha', he⟩]

theorem mapM_getElem {f : α → Except ε β} {l : List α} {out : List β} (h : l.mapM f = .ok out)
    {i : ℕ} {a : α} (hi : l[i]? = some a) : ∃ b, out[i]? = some b ∧ f a = .ok b := by
  rw [mapM_ok_iff] at h
  have hl := h.length_eq
  obtain ⟨hlt, rfl⟩ := List.getElem?_eq_some_iff.mp hi
  refine ⟨out[i]'(by omega), by simp, ?_⟩
  have := h.get hlt (by omega : i < out.length)
  simpa using this

end Verif
