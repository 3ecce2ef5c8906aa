import Verif.Spec.Caches

/-!
# Lemmas on `modules()`, `clear_cache` and the calls of phone loops
-/

namespace Verif.CacheLemmas

open Verif Verif.Caches Verif.PhoneLoop Verif.CacheSpec

theorem holds_trans {a b c : Mod} (h : Holds a b) (h' : Holds b c) : Holds a c := by
  induction h with
  | refl _ => exact h'
  | child m d x hd _ ih => exact .child m d c hd (ih h')

theorem sameId_of {a b : Mod} (h : SameId a) (hb : Holds a b) : SameId b :=
  fun x y hx hy => h x y (holds_trans hb hx) (holds_trans hb hy)

mutual
theorem visit_holds (m : Mod) (memo : List ℕ) (x : Mod) (hx : x ∈ (visit m memo).1) : Holds m x := by
  match m with
  | .mk i b cs =>
    unfold visit at hx
    split at hx
    · simp at hx
    · rcases List.mem_cons.1 hx with rfl | h
      · exact .refl _
      · obtain ⟨c, hc, h⟩ := visitAll_holds cs _ x h
        exact .child _ c x hc h

theorem visitAll_holds (cs : List Mod) (memo : List ℕ) (x : Mod) (hx : x ∈ (visitAll cs memo).1) :
    ∃ c ∈ cs, Holds c x := by
  match cs with
  | [] => simp [visitAll] at hx
  | c :: cs =>
    unfold visitAll at hx
    rcases List.mem_append.1 hx with h | h
    · exact ⟨c, by simp, visit_holds c _ x h⟩
    · obtain ⟨d, hd, h⟩ := visitAll_holds cs _ x h
      exact ⟨d, by simp [hd], h⟩
end

mutual
/-- The memo only grows, by the identities of the modules given. -/
theorem visit_memo (m : Mod) (memo : List ℕ) (i : ℕ) :
    i ∈ (visit m memo).2 ↔ i ∈ memo ∨ ∃ x ∈ (visit m memo).1, x.id = i := by
  match m with
  | .mk j b cs =>
    unfold visit
    split
    · simp
    · have := visitAll_memo cs (j :: memo) i
      simp only [this, List.mem_cons, exists_eq_or_imp, Mod.id]
      constructor
      · rintro ((rfl | h) | h)
        · exact .inr (.inl rfl)
        · exact .inl h
        · exact .inr (.inr h)
      · rintro (h | rfl | h)
        · exact .inl (.inr h)
        · exact .inl (.inl rfl)
        · exact .inr h

theorem visitAll_memo (cs : List Mod) (memo : List ℕ) (i : ℕ) :
    i ∈ (visitAll cs memo).2 ↔ i ∈ memo ∨ ∃ x ∈ (visitAll cs memo).1, x.id = i := by
  match cs with
  | [] => simp [visitAll]
  | c :: cs =>
    unfold visitAll
    simp only [visitAll_memo cs, visit_memo c memo i, List.mem_append, or_and_right, exists_or, or_assoc]
end

/-- The memo is closed: what a known module holds is known, but for modules being visited. -/
def Closed (root : Mod) (path memo : List ℕ) : Prop :=
  ∀ x, Holds root x → x.id ∈ memo → x.id ∉ path → ∀ c ∈ x.children, c.id ∈ memo

mutual
theorem visit_closed (root : Mod) (hr : SameId root) (m : Mod) (hm : Holds root m) (path memo : List ℕ)
    (h : Closed root path memo) : m.id ∈ (visit m memo).2 ∧ Closed root path (visit m memo).2 := by
  match m, hm with
  | .mk i b cs, hm =>
    unfold visit
    split
    · next hi => exact ⟨hi, h⟩
    · next hi =>
      have hcl : Closed root (i :: path) (i :: memo) := by
        intro x hx hxm hxp c hc
        simp only [List.mem_cons, not_or] at hxp hxm ⊢
        exact .inr (h x hx (hxm.resolve_left hxp.1) hxp.2 c hc)
      obtain ⟨h1, h2⟩ := visitAll_closed root hr cs
        (fun c hc => holds_trans hm (.child _ c c hc (.refl c))) (i :: path) (i :: memo) hcl
      have hmem : ∀ j, j ∈ i :: memo → j ∈ (visitAll cs (i :: memo)).2 :=
        fun j hj => (visitAll_memo cs _ j).2 (.inl hj)
      refine ⟨hmem i (by simp), ?_⟩
      intro x hx hxm hxp c hc
      by_cases hxi : x.id = i
      · have : x = .mk i b cs := hr x _ hx hm hxi
        subst this
        exact h1 c hc
      · exact h2 x hx hxm (by simp [hxi, hxp]) c hc

theorem visitAll_closed (root : Mod) (hr : SameId root) (cs : List Mod) (hcs : ∀ c ∈ cs, Holds root c)
    (path memo : List ℕ) (h : Closed root path memo) :
    (∀ c ∈ cs, c.id ∈ (visitAll cs memo).2) ∧ Closed root path (visitAll cs memo).2 := by
  match cs, hcs with
  | [], _ => exact ⟨by simp, h⟩
  | c :: cs, hcs =>
    unfold visitAll
    obtain ⟨h1, h2⟩ := visit_closed root hr c (hcs c (by simp)) path memo h
    obtain ⟨h3, h4⟩ := visitAll_closed root hr cs (fun d hd => hcs d (by simp [hd])) path _ h2
    refine ⟨?_, h4⟩
    intro d hd
    rcases List.mem_cons.1 hd with rfl | hd
    · exact (visitAll_memo cs _ _).2 (.inl h1)
    · exact h3 d hd
end

/-- `modules()` gives exactly the modules held. -/
theorem modules_mem (m : Mod) (hm : SameId m) (x : Mod) : x ∈ m.modules ↔ Holds m x := by
  constructor
  · exact visit_holds m [] x
  · intro hx
    obtain ⟨h1, h2⟩ := visit_closed m hm m (.refl m) [] [] (by intro x _ h; simp at h)
    have key : ∀ y, Holds m y → ∀ z, Holds y z → y.id ∈ (visit m []).2 → z.id ∈ (visit m []).2 := by
      intro y hy z hz
      induction hz with
      | refl _ => exact id
      | child a c z hc _ ih =>
        intro ha
        exact ih (holds_trans hy (.child a c c hc (.refl c))) (h2 a hy ha (by simp) c hc)
    obtain ⟨y, hy, hyx⟩ := ((visit_memo m [] x.id).1 (key m (.refl m) x hx h1)).resolve_left (by simp)
    rw [← hm y x (visit_holds m [] y hy) hx hyx]
    exact hy

variable {V : Type}

theorem foldl_cleared {β : Type} (f : Heap V → β → Heap V) (xs : List β) (h : Heap V) (i : ℕ)
    (hkeep : ∀ h x, h i = [] → f h x i = []) (hset : h i = [] ∨ ∃ x ∈ xs, ∀ h, f h x i = []) :
    xs.foldl f h i = [] := by
  induction xs generalizing h with
  | nil => simpa using hset
  | cons x xs ih =>
    refine ih (f h x) ?_
    rcases hset with h0 | ⟨y, hy, hy'⟩
    · exact .inl (hkeep h x h0)
    · rcases List.mem_cons.1 hy with rfl | hy
      · exact .inl (hy' h)
      · exact .inr ⟨y, hy, hy'⟩

theorem foldl_other {β : Type} (f : Heap V → β → Heap V) (xs : List β) (h : Heap V) (i : ℕ)
    (hkeep : ∀ x ∈ xs, ∀ h, f h x i = h i) : xs.foldl f h i = h i := by
  induction xs generalizing h with
  | nil => rfl
  | cons x xs ih =>
    rw [List.foldl_cons, ih _ fun y hy => hkeep y (by simp [hy]), hkeep x (by simp)]

open scoped Classical in
theorem clearCache_spec (N : ℕ) : ∀ (m : Mod), sizeOf m < N → m.isModel = true → SameId m → ∀ (h : Heap V) (i : ℕ),
    clearCache m h i = if ∃ x, Holds m x ∧ x.isModel = true ∧ x.id = i then [] else h i := by
  induction N with
  | zero => intro m hm; omega
  | succ N ih =>
    intro m hN hmod hm h i
    have hsmall : ∀ x ∈ m.modules, x.id ≠ m.id → sizeOf x < N := by
      intro x hx hxi
      rcases visit_size m [] x hx with rfl | h'
      · exact absurd rfl hxi
      · omega
    have hrec : ∀ x ∈ m.modules, x.id ≠ m.id → x.isModel = true → ∀ h : Heap V, clearCache x h i =
        if ∃ y, Holds x y ∧ y.isModel = true ∧ y.id = i then [] else h i :=
      fun x hx hxi hxm h => ih x (hsmall x hx hxi) hxm (sameId_of hm ((modules_mem m hm x).1 hx)) h i
    rw [clearCache]
    split
    · next hex =>
      obtain ⟨x, hx, hxm, hxi⟩ := hex
      apply foldl_cleared
      · intro h y h0
        split
        · next hy =>
          split
          · next hym => rw [hrec y.1 y.2 hy hym]; split <;> simp_all
          · exact h0
        · exact h0
      · by_cases hxid : x.id = m.id
        · left
          rw [← hxi, hxid, Function.update_self]
        · right
          have hx' := (modules_mem m hm x).2 hx
          refine ⟨⟨x, hx'⟩, List.mem_attach _ _, fun h => ?_⟩
          simp only [ne_eq, hxid, not_false_eq_true, dite_true, hxm, if_true]
          rw [hrec x hx' hxid hxm, if_pos ⟨x, .refl x, hxm, hxi⟩]
    · next hex =>
      push Not at hex
      rw [foldl_other]
      · rw [Function.update_of_ne]
        exact fun hc => hex m (.refl m) hmod hc.symm
      · intro y _ h
        split
        · next hy =>
          split
          · next hym =>
            rw [hrec y.1 y.2 hy hym, if_neg]
            rintro ⟨z, hz, hzm, hzi⟩
            exact hex z (holds_trans ((modules_mem m hm y.1).1 y.2) hz) hzm hzi
          · rfl
        · rfl

variable {n P : ℕ}

theorem call_tidy (starts : Fin P → Fin n) (ends : List (Fin n)) (old : Option (Cache n)) (c : Call n)
    (hold : old.bind Cache.trans = none) (hc : Tidy c) :
    (call starts ends old c).2.bind Cache.trans = none ∧
      (call starts ends old c).1 = (call starts ends none c).1 := by
  match c with
  | .elbo u none => simp [call, elboCounts, cacheAfter, hold]
  | .elbo u (some e) =>
    simp only [Tidy] at hc
    simp [call, cacheAfter, hc, hold]
  | .evaluate u =>
    simp only [Tidy] at hc
    simp [call, cacheAfter, hc, hold]
  | .decode => simp [call, hold]
  | .clear => simp [call]

end Verif.CacheLemmas
