import Verif.Lemmas.Caches

/-!
# C148: caches never leak from one evaluation to another
-/

namespace Verif.Props

open Verif Verif.Caches Verif.PhoneLoop Verif.Dists Verif.CacheSpec Verif.CacheLemmas

variable {V : Type}

/-! ## `clear_cache` -/

open scoped Classical in
/-- C148: `clear_cache` empties the cache of the model and of every model it holds, at any depth and however the
modules are shared; the caches of other modules are left alone. -/
theorem C148_clear (m : Mod) (hmod : m.isModel = true) (hm : SameId m) (h : Heap V) (i : ℕ) :
    clearCache m h i = if ∃ x, Holds m x ∧ x.isModel = true ∧ x.id = i then [] else h i :=
  clearCache_spec _ m (Nat.lt_succ_self _) hmod hm h i

/-- A model (0) whose emissions (2) are in a container (1) which is not a model; 3 is not part of it. -/
example : (clearCache (.mk 0 true [.mk 1 false [.mk 2 true []]]) fun _ => [("resps", 7)]) 2 = [] ∧
    (clearCache (.mk 0 true [.mk 1 false [.mk 2 true []]]) fun _ => [("resps", 7)]) 3 = [("resps", 7)] := by
  have hh : ∀ x, Holds (.mk 0 true [.mk 1 false [.mk 2 true []]]) x ↔ x = .mk 0 true [.mk 1 false [.mk 2 true []]] ∨
      x = .mk 1 false [.mk 2 true []] ∨ x = .mk 2 true [] := by
    intro x
    constructor
    · intro h
      cases h with
      | refl => exact .inl rfl
      | child _ c _ hc h =>
        simp only [Mod.children, List.mem_singleton] at hc
        subst hc
        cases h with
        | refl => exact .inr (.inl rfl)
        | child _ c _ hc h =>
          simp only [Mod.children, List.mem_singleton] at hc
          subst hc
          cases h with
          | refl => exact .inr (.inr rfl)
          | child _ c _ hc h => simp [Mod.children] at hc
    · rintro (rfl | rfl | rfl)
      · exact .refl _
      · exact .child _ _ _ (by simp [Mod.children]) (.refl _)
      · exact .child _ (.mk 1 false [.mk 2 true []]) _ (by simp [Mod.children])
          (.child _ _ _ (by simp [Mod.children]) (.refl _))
  have hs : SameId (.mk 0 true [.mk 1 false [.mk 2 true []]]) := by
    intro x y hx hy hxy
    rw [hh] at hx hy
    rcases hx with rfl | rfl | rfl <;> rcases hy with rfl | rfl | rfl <;> simp_all [Mod.id]
  constructor
  · rw [C148_clear _ rfl hs, if_pos]
    exact ⟨.mk 2 true [], (hh _).2 (by simp), rfl, rfl⟩
  · rw [C148_clear _ rfl hs, if_neg]
    rintro ⟨x, hx, hx', hi⟩
    rw [hh] at hx
    rcases hx with rfl | rfl | rfl <;> simp [Mod.id] at hi

/-! ## Phone loops -/

variable {n P : ℕ}

/-- C148: with tidy calls, every call gives what it gives on a fresh model, whatever was called before. -/
theorem C148_history_partial (starts : Fin P → Fin n) (ends : List (Fin n)) (cs : List (Call n))
    (hcs : ∀ c ∈ cs, Tidy c) : (calls starts ends none cs).1 = cs.map fun c => (call starts ends none c).1 := by
  have key : ∀ (cs : List (Call n)) (old : Option (Cache n)), old.bind Cache.trans = none → (∀ c ∈ cs, Tidy c) →
      (calls starts ends old cs).1 = cs.map fun c => (call starts ends none c).1 := by
    intro cs
    induction cs with
    | nil => intros; rfl
    | cons c cs ih =>
      intro old hold hcs
      obtain ⟨h1, h2⟩ := call_tidy starts ends old c hold (hcs c (by simp))
      simp only [calls, List.map_cons]
      rw [ih _ h1 fun d hd => hcs d (by simp [hd]), h2]
  exact key cs none rfl hcs

/-- C148: an objective without alignment graph never depends on what was called before, tidy or not. -/
theorem C148_unaligned (starts : Fin P → Fin n) (ends : List (Fin n)) (cs : List (Call n)) (u : PUtt n)
    (hu : u.aligned = false) : call starts ends (calls starts ends none cs).2 (.elbo u none) =
      (.ok (catStats (List.ofFn (phoneCounts starts ends u.resps0 u.trans))), none) := by
  simp [call, elboCounts, cacheAfter, hu, accumulateCounts]

/-- C148, violated: `trans_resps` stays in the cache when an utterance is evaluated outside of `evidence_lower_bound`,
or when `evidence_lower_bound` raises. The objective of an utterance with alignment graph then counts the transitions
of that other utterance, even when utterances are decoded in between; on a fresh model it counts nothing. -/
theorem C148_stale (starts : Fin P → Fin n) (ends : List (Fin n)) (cs : List (Call n)) (u v : PUtt n) (e : Err)
    (hu : u.aligned = false) (hv : v.aligned = true) (c : Call n) (hc : c = .evaluate u ∨ c = .elbo u (some e))
    (decoded : ℕ) : call starts ends (calls starts ends none (cs ++ c :: List.replicate decoded .decode)).2 (.elbo v none) =
      (.ok (catStats (List.ofFn (phoneCounts starts ends v.resps0 u.trans))), none) ∧
    call starts ends none (.elbo v none) = (.ok (List.ofFn fun _ : Fin P => 0), none) := by
  have hdec : ∀ old : Option (Cache n), (calls starts ends old (List.replicate decoded .decode)).2 = old := by
    intro old
    induction decoded with
    | zero => rfl
    | succ k ih => simpa only [List.replicate_succ, calls, call] using ih
  have hrun : ∀ (cs : List (Call n)) (old : Option (Cache n)),
      (calls starts ends old (cs ++ c :: List.replicate decoded .decode)).2 =
        (call starts ends (calls starts ends old cs).2 c).2 := by
    intro cs
    induction cs with
    | nil => intro old; simp only [List.nil_append, calls, hdec]
    | cons d cs ih => intro old; simp only [List.cons_append, calls, ih]
  constructor
  · rw [hrun]
    rcases hc with rfl | rfl <;> simp [call, elboCounts, cacheAfter, hu, hv, accumulateCounts]
  · simp [call, elboCounts, cacheAfter, hv, accumulateCounts]

/-- Two states, one phone from state 0 to state 1. An utterance `u` without alignment goes three times from 1 to 0;
an aligned one then counts these three transitions, and itself; on a fresh model, nothing. -/
noncomputable def staleU : PUtt 2 := ⟨fun s => if s = 0 then 1 else 0, 1, fun _ s d => if s = 1 ∧ d = 0 then 3 else 0, false⟩

noncomputable def staleV : PUtt 2 := ⟨fun s => if s = 0 then 1 else 0, 1, fun _ _ _ => 0, true⟩

example : (call (fun _ : Fin 1 => (0 : Fin 2)) [1]
      (calls (fun _ : Fin 1 => (0 : Fin 2)) [1] none ([.decode] ++ [.evaluate staleU, .decode, .decode])).2 (.elbo staleV none)).1 =
      .ok (catStats [4]) ∧
    (call (fun _ : Fin 1 => (0 : Fin 2)) [1] none (.elbo staleV none)).1 = .ok [0] := by
  obtain ⟨h1, h2⟩ := C148_stale (fun _ : Fin 1 => (0 : Fin 2)) [1] [.decode] staleU staleV .typeError rfl rfl
    (.evaluate staleU) (.inl rfl) 2
  rw [show (List.replicate 2 Call.decode : List (Call 2)) = [.decode, .decode] from rfl] at h1
  rw [h1, h2]
  simp [phoneCounts, staleU, staleV]
  norm_num

example : (calls (fun _ : Fin 1 => (0 : Fin 2)) [1] none
      [.elbo staleU none, .evaluate staleV, .decode, .elbo staleV none]).1 =
    [.ok (catStats [4]), .ok [], .ok [], .ok [0]] := by
  rw [C148_history_partial]
  · simp [call, elboCounts, cacheAfter, accumulateCounts, staleU, staleV, phoneCounts]
    norm_num
  · simp [Tidy, staleV]

end Verif.Props
