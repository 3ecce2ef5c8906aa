import Verif.Model.HInit
import Verif.Lemmas.Pipeline

/-!
# Lemmas about the dictionaries and the groups of the hierarchical subspace models
-/

namespace Verif.HInit

open Verif Pipeline

variable {T G P U V : Type}

theorem dictGet_set_self {α β : Type} [DecidableEq α] (d : List (α × β)) (k : α) (v : β) :
    dictGet (dictSet d k v) k = .ok v := by
  unfold dictGet dictSet
  by_cases h : k ∈ d.map Prod.fst
  · rw [if_pos h]
    have : (d.map fun p => if p.1 = k then (k, v) else p).find? (fun p => p.1 = k) = some (k, v) := by
      induction d with
      | nil => simp at h
      | cons p d ih =>
        rw [List.map_cons]
        by_cases hp : p.1 = k
        · rw [if_pos hp, List.find?_cons_of_pos (by simp)]
        · rw [if_neg hp, List.find?_cons_of_neg (by simpa using hp)]
          apply ih
          rw [List.map_cons] at h
          rcases List.mem_cons.1 h with h | h
          · exact absurd h.symm hp
          · exact h
    rw [this]
  · rw [if_neg h]
    have h1 : d.find? (fun p => p.1 = k) = none := by
      rw [List.find?_eq_none]
      intro p hp hk
      exact h (List.mem_map.2 ⟨p, hp, by simpa using hk⟩)
    rw [List.find?_append, h1]
    simp

theorem dictGet_set_other {α β : Type} [DecidableEq α] (d : List (α × β)) (k k' : α) (v : β) (hk : k' ≠ k) :
    dictGet (dictSet d k v) k' = dictGet d k' := by
  unfold dictGet dictSet
  by_cases hin : k ∈ d.map Prod.fst
  · rw [if_pos hin]
    clear hin
    have : (d.map fun p => if p.1 = k then (k, v) else p).find? (fun p => p.1 = k') =
        d.find? (fun p => p.1 = k') := by
      induction d with
      | nil => rfl
      | cons p d ih =>
        rw [List.map_cons]
        by_cases hp : p.1 = k
        · have h1 : ¬ p.1 = k' := fun h => hk (h ▸ hp)
          rw [if_pos hp, List.find?_cons_of_neg (by simpa using fun h => hk h.symm),
            List.find?_cons_of_neg (by simpa using h1)]
          exact ih
        · rw [if_neg hp]
          by_cases h1 : p.1 = k'
          · rw [List.find?_cons_of_pos (by simpa using h1), List.find?_cons_of_pos (by simpa using h1)]
          · rw [List.find?_cons_of_neg (by simpa using h1), List.find?_cons_of_neg (by simpa using h1)]
            exact ih
    rw [this]
  · rw [if_neg hin, List.find?_append]
    have : [(k, v)].find? (fun p => p.1 = k') = none := by
      rw [List.find?_cons_of_neg (by simpa using fun h => hk h.symm)]
      rfl
    rw [this, Option.or_none]

theorem dictGet_isOk {α β : Type} [DecidableEq α] (d : List (α × β)) (k : α) :
    (∃ v, dictGet d k = .ok v) ↔ k ∈ d.map Prod.fst := by
  constructor
  · rintro ⟨v, h⟩
    exact List.mem_map.2 ⟨_, dictGet_mem d k v h, rfl⟩
  · intro h
    unfold dictGet
    cases hf : d.find? (fun p => p.1 = k) with
    | none =>
      obtain ⟨p, hp, rfl⟩ := List.mem_map.1 h
      have := List.find?_eq_none.1 hf p hp
      simp at this
    | some p => exact ⟨p.2, rfl⟩

theorem dictGet_not {α β : Type} [DecidableEq α] (d : List (α × β)) (k : α) (e : Err) (h : dictGet d k = .error e) :
    e = .keyError ∧ k ∉ d.map Prod.fst := by
  constructor
  · unfold dictGet at h
    split at h <;> simp_all
  · intro hk
    obtain ⟨v, hv⟩ := (dictGet_isOk d k).2 hk
    rw [hv] at h
    simp at h

/-- The index found has the most emissions; the first of those, unless the starting one is as good. -/
theorem largestFrom_spec (lens : List ℕ) : ∀ (ns : List ℕ) (j best : ℕ), lens.drop j = ns → best < lens.length →
    largestFrom lens ns j best < lens.length ∧
    (∀ i, j ≤ i → i < lens.length → lens.getD i 0 ≤ lens.getD (largestFrom lens ns j best) 0) ∧
    lens.getD best 0 ≤ lens.getD (largestFrom lens ns j best) 0 ∧
    (largestFrom lens ns j best = best ∨ lens.getD best 0 < lens.getD (largestFrom lens ns j best) 0)
  | [], j, best, h, hb => by
    refine ⟨hb, fun i hi hi2 => ?_, le_refl _, .inl rfl⟩
    have := List.drop_eq_nil_iff.1 h
    omega
  | n :: ns, j, best, h, hb => by
    have hj : j < lens.length := by
      by_contra hc
      rw [List.drop_of_length_le (by omega)] at h
      simp at h
    have hn : lens.getD j 0 = n := by
      rw [List.drop_eq_getElem_cons hj, List.cons.injEq] at h
      rw [List.getD_eq_getElem?_getD, List.getElem?_eq_getElem hj, h.1]
      rfl
    have hd : lens.drop (j + 1) = ns := by
      rw [List.drop_eq_getElem_cons hj, List.cons.injEq] at h
      exact h.2
    unfold largestFrom
    split
    · rename_i hlt
      obtain ⟨h1, h2, h3, h4⟩ := largestFrom_spec lens ns (j + 1) j hd hj
      rw [hn] at h3
      refine ⟨h1, fun i hi hi2 => ?_, by omega, .inr (by omega)⟩
      rcases Nat.eq_or_lt_of_le hi with rfl | hi
      · omega
      · exact h2 i hi hi2
    · rename_i hlt
      obtain ⟨h1, h2, h3, h4⟩ := largestFrom_spec lens ns (j + 1) best hd hb
      refine ⟨h1, fun i hi hi2 => ?_, h3, h4⟩
      rcases Nat.eq_or_lt_of_le hi with rfl | hi
      · omega
      · exact h2 i hi hi2

theorem writeUnits_length (write : U → V → U) : ∀ (us : List U) (vs : List V),
    (writeUnits write us vs).length = us.length
  | [], vs => by unfold writeUnits; rfl
  | u :: us, [] => by unfold writeUnits; rfl
  | u :: us, v :: vs => by unfold writeUnits; simp [writeUnits_length write us vs]

theorem writeUnits_get (write : U → V → U) : ∀ (us : List U) (vs : List V) (n : ℕ) (u : U), us[n]? = some u →
    (writeUnits write us vs)[n]? = some (match vs[n]? with | some v => write u v | none => u)
  | [], vs, n, u, h => by simp at h
  | w :: us, [], n, u, h => by unfold writeUnits; rw [h]; simp
  | w :: us, v :: vs, 0, u, h => by
    unfold writeUnits
    simp only [List.getElem?_cons_zero, Option.some.injEq] at h ⊢
    rw [h]
  | w :: us, v :: vs, n + 1, u, h => by
    unfold writeUnits
    simp only [List.getElem?_cons_succ] at h ⊢
    exact writeUnits_get write us vs n u h

theorem setRoot_self (h : GHeap T G) (a : ℕ) (root : T) : setRoot h a root a = ⟨root, (h a).rest⟩ := if_pos rfl

theorem setRoot_other (h : GHeap T G) (a b : ℕ) (root : T) (hb : b ≠ a) : setRoot h a root b = h b := if_neg hb

theorem setRoot_rest (h : GHeap T G) (a b : ℕ) (root : T) : (setRoot h a root b).rest = (h b).rest := by
  by_cases hb : b = a
  · subst hb; rw [setRoot_self]
  · rw [setRoot_other _ _ _ _ hb]

/-- What a run of `hshmm init` that does not fail has looked up and done. -/
theorem hinit_inv [Inhabited V] {pdfvecs : T → G → P → List V} {write : U → V → U} {lang adaptFrom initFrom : String}
    {same : Bool} {heap : GHeap T G} {gsm target : HFile T} {posts : List (String × P)} {unitsDict : List (String × ℕ)}
    {nstates groupidx : ℕ} {loops : List (String × Loop U)} {out : InitOut T G U}
    (h : hinit pdfvecs write lang adaptFrom initFrom same heap gsm target posts unitsDict nstates groupidx loops =
      .ok out) :
    ∃ langs addr nunits loop g p,
      ((adaptFrom = "" ∧ langs = target.langs) ∨
        (adaptFrom ≠ "" ∧ ∃ a, dictGet gsm.langs adaptFrom = .ok a ∧ langs = dictSet target.langs lang a)) ∧
      ((initFrom ≠ "" ∧ dictGet gsm.langs initFrom = .ok addr) ∨ (initFrom = "" ∧ dictGet langs lang = .ok addr)) ∧
      dictGet unitsDict lang = .ok nunits ∧ dictGet loops lang = .ok loop ∧
      initGroup (loop.map Prod.fst) groupidx nstates = .ok g ∧ dictGet posts lang = .ok p ∧
      out.heap = setRoot heap addr gsm.root ∧ out.gsm = ⟨gsm.root, langs⟩ ∧
      out.loops = dictSet loops lang (loop.set g ((loop.getD g (0, [])).1,
        writeUnits write ((loop.getD g (0, [])).2.take nunits)
          (if same then (pdfvecs gsm.root (heap addr).rest p).map
              (fun _ => (pdfvecs gsm.root (heap addr).rest p).headD default)
            else pdfvecs gsm.root (heap addr).rest p) ++ (loop.getD g (0, [])).2.drop nunits)) := by
  unfold hinit at h
  simp only [bind, Except.bind, pure, Except.pure] at h
  split at h
  · simp at h
  rename_i langs hl
  split at h
  · simp at h
  rename_i addr ha
  split at h
  · simp at h
  rename_i nunits hn
  split at h
  · simp at h
  rename_i loop hlo
  split at h
  · simp at h
  rename_i g hg
  split at h
  · simp at h
  rename_i p hp
  simp only [Except.ok.injEq] at h
  refine ⟨langs, addr, nunits, loop, g, p, ?_, ?_, hn, hlo, hg, hp, ?_, ?_, ?_⟩
  · unfold initLangs at hl
    by_cases hA : adaptFrom = ""
    · rw [if_neg (by simpa using hA)] at hl
      simp only [Except.ok.injEq] at hl
      exact .inl ⟨hA, hl.symm⟩
    · rw [if_pos hA] at hl
      cases h2 : dictGet gsm.langs adaptFrom with
      | error e => rw [h2] at hl; simp [Except.map] at hl
      | ok a =>
        rw [h2] at hl
        simp only [Except.map, Except.ok.injEq] at hl
        exact .inr ⟨hA, a, rfl, hl.symm⟩
  · unfold initSource at ha
    by_cases hI : initFrom = ""
    · rw [if_neg (by simpa using hI)] at ha
      exact .inr ⟨hI, ha⟩
    · rw [if_pos hI] at ha
      exact .inl ⟨hI, ha⟩
  · rw [← h]
  · rw [← h]
  · rw [← h]
    simp only [setRoot_self]

end Verif.HInit
