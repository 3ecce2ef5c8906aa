import Verif.Model.SPhoneLoop
import Verif.Spec.SPhoneLoop
import Verif.Lemmas.Units
import Verif.Props.MixtureSetSlice

/-!
# Lemmas on the creation of a subspace phone-loop
-/

namespace Verif.SPL

open Verif ModelSet Pipeline SPLSpec Spec

/-! ## Labels -/

theorem dictGet_zipIdx (c : String) (S : List String) (hs : S.Pairwise (· < ·)) (hc : c ∈ S) (k : ℕ) :
    dictGet (S.zipIdx k) c = .ok (k + (S.filter fun d => d < c).length) := by
  induction S generalizing k with
  | nil => simp at hc
  | cons a S ih =>
    rw [List.pairwise_cons] at hs
    unfold dictGet
    by_cases hac : a = c
    · subst hac
      have : S.filter (fun d => decide (d < a)) = [] := by
        rw [List.filter_eq_nil_iff]
        intro d hd
        rw [decide_eq_true_eq]
        exact not_lt_of_gt (hs.1 d hd)
      rw [List.filter_cons_of_neg (by rw [decide_eq_true_eq]; exact lt_irrefl a), this]
      simp
    · have hcS : c ∈ S := by
        rcases List.mem_cons.1 hc with h | h
        · exact absurd h.symm hac
        · exact h
      have := ih hs.2 hcS (k + 1)
      unfold dictGet at this
      have hlt : a < c := hs.1 c hcS
      simp only [List.zipIdx_cons, List.find?_cons, hac, decide_false, List.filter_cons, hlt, decide_true,
        if_true, List.length_cons, this]
      congr 1
      omega

theorem dictSet_keys {α β : Type} [DecidableEq α] (d : List (α × β)) (k : α) (v : β) :
    (dictSet d k v).map Prod.fst = if k ∈ d.map Prod.fst then d.map Prod.fst else d.map Prod.fst ++ [k] := by
  unfold dictSet
  split
  · rw [List.map_map]
    refine List.map_congr_left fun p _ => ?_
    simp only [Function.comp]
    split
    · rename_i h; exact h.symm
    · rfl
  · simp

theorem dictSet_find {α β : Type} [DecidableEq α] (d : List (α × β)) (k : α) (v : β) (x : α) :
    ((dictSet d k v).find? fun p => p.1 = x).map Prod.snd =
      if k = x then some v else (d.find? fun p => p.1 = x).map Prod.snd := by
  unfold dictSet
  split
  · rename_i hk
    induction d with
    | nil => simp at hk
    | cons p d ih =>
      by_cases hp : p.1 = k
      · subst hp
        by_cases hx : p.1 = x
        · simp [hx]
        · simp only [List.map_cons, if_true, List.find?_cons, hx, decide_false, if_false]
          by_cases hd : p.1 ∈ d.map Prod.fst
          · rw [ih hd, if_neg hx]
          · have : d.map (fun q => if q.1 = p.1 then (p.1, v) else q) = d := by
              conv_rhs => rw [← List.map_id d]
              refine List.map_congr_left fun q hq => ?_
              rw [if_neg]
              · rfl
              · intro h
                exact hd (List.mem_map.2 ⟨q, hq, h⟩)
            rw [this]
      · have hk' : k ∈ d.map Prod.fst := by
          rw [List.map_cons, List.mem_cons] at hk
          exact hk.resolve_left fun h => hp h.symm
        simp only [List.map_cons, if_neg hp, List.find?_cons]
        by_cases hx : p.1 = x
        · have : k ≠ x := fun h => hp (hx.trans h.symm)
          simp [hx, this]
        · simp only [hx, decide_false]
          exact ih hk'
  · rename_i hk
    rw [List.find?_append]
    by_cases hx : k = x
    · subst hx
      have : d.find? (fun p => decide (p.1 = k)) = none := by
        rw [List.find?_eq_none]
        intro p hp h
        exact hk (List.mem_map.2 ⟨p, hp, by simpa using h⟩)
      simp [this]
    · simp [hx]

theorem readClasses_ok (file : List (String × String)) (u2c c2u : List (String × String)) :
    ∃ u c, readClasses (file.map fun p => [p.1, p.2]) u2c c2u = .ok (u, c) ∧
      (∀ x, (u.find? fun p => p.1 = x).map Prod.snd =
        ((classOf file x).or ((u2c.find? fun p => p.1 = x).map Prod.snd))) ∧
      (∀ x, x ∈ c.map Prod.fst ↔ x ∈ c2u.map Prod.fst ∨ x ∈ file.map Prod.snd) ∧
      ((c2u.map Prod.fst).Nodup → (c.map Prod.fst).Nodup) := by
  induction file generalizing u2c c2u with
  | nil => exact ⟨u2c, c2u, rfl, by simp [classOf], by simp, id⟩
  | cons p file ih =>
    obtain ⟨u, c, h1, h2, h3, h4⟩ := ih (dictSet u2c p.1 p.2) (dictSet c2u p.2 p.1)
    refine ⟨u, c, h1, ?_, ?_, ?_⟩
    · intro x
      rw [h2, dictSet_find]
      unfold classOf
      rw [List.reverse_cons, List.find?_append]
      cases hf : file.reverse.find? fun p => decide (p.1 = x) with
      | some q => simp
      | none =>
        by_cases hx : p.1 = x
        · simp [hx]
        · simp [hx]
    · intro x
      rw [h3, dictSet_keys]
      split
      · rename_i hk
        simp only [List.map_cons, List.mem_cons]
        constructor
        · rintro (h | h)
          · exact Or.inl h
          · exact Or.inr (Or.inr h)
        · rintro (h | rfl | h)
          · exact Or.inl h
          · exact Or.inl hk
          · exact Or.inr h
      · simp only [List.map_cons, List.mem_cons, List.mem_append, List.not_mem_nil, or_false]
        tauto
    · intro hn
      refine h4 ?_
      rw [dictSet_keys]
      split
      · exact hn
      · rename_i hk
        rw [List.nodup_append]
        refine ⟨hn, by simp, ?_⟩
        intro a ha b hb
        rw [List.mem_singleton] at hb
        subst hb
        intro h
        exact hk (h ▸ ha)

theorem classIndex_get (file c2u : List (String × String)) (hn : (c2u.map Prod.fst).Nodup)
    (hm : ∀ x, x ∈ c2u.map Prod.fst ↔ x ∈ file.map Prod.snd) (c : String) (hc : c ∈ file.map Prod.snd) :
    dictGet (classIndex c2u) c = .ok (classRank file c) := by
  unfold classIndex classRank classes
  have hp := List.perm_insertionSort (· ≤ ·) (c2u.map Prod.fst)
  have hs : ((c2u.map Prod.fst).insertionSort (· ≤ ·)).Pairwise (· < ·) := by
    have h1 := List.pairwise_insertionSort (· ≤ ·) (c2u.map Prod.fst)
    have h2 : ((c2u.map Prod.fst).insertionSort (· ≤ ·)).Nodup := hp.nodup_iff.2 hn
    exact (h1.and h2).imp fun h => lt_of_le_of_ne h.1 h.2
  rw [dictGet_zipIdx c _ hs (hp.mem_iff.2 ((hm c).2 hc)) 0, Nat.zero_add]
  congr 1
  refine List.Perm.length_eq (List.Perm.filter _ (hp.trans ?_))
  rw [List.perm_ext_iff_of_nodup hn (List.nodup_dedup _)]
  intro x
  rw [List.mem_dedup]
  exact hm x

theorem labelsLoop_eq (file u2c : List (String × String)) (c2i : List (String × ℕ))
    (hu : ∀ x, (u2c.find? fun p => p.1 = x).map Prod.snd = classOf file x)
    (hc : ∀ c ∈ file.map Prod.snd, dictGet c2i c = .ok (classRank file c))
    (us : List String) (done : List ℕ) (rest : ℕ) :
    labelsLoop u2c c2i us done.length (done ++ List.replicate rest 0) =
      if (us.filterMap (classOf file)).length ≤ rest then
        .ok (done ++ (us.filterMap (classOf file)).map (classRank file) ++
          List.replicate (rest - (us.filterMap (classOf file)).length) 0)
      else .error .indexError := by
  induction us generalizing done rest with
  | nil => simp [labelsLoop]
  | cons u us ih =>
    have hu' := hu u
    unfold labelsLoop
    cases hf : u2c.find? fun p => decide (p.1 = u) with
    | none =>
      rw [hf] at hu'
      simp only [Option.map_none] at hu'
      rw [List.filterMap_cons_none hu'.symm]
      exact ih done rest
    | some p =>
      rw [hf] at hu'
      simp only [Option.map_some] at hu'
      rw [List.filterMap_cons_some hu'.symm]
      have hmem : p.2 ∈ file.map Prod.snd := by
        have := hu'.symm
        unfold classOf at this
        rw [Option.map_eq_some_iff] at this
        obtain ⟨q, hq, hq2⟩ := this
        exact List.mem_map.2 ⟨q, List.mem_reverse.1 (List.mem_of_find?_eq_some hq), hq2⟩
      simp only [hc _ hmem]
      rcases rest with _ | rest
      · simp
      · rw [if_pos (by simp)]
        have hset : (done ++ List.replicate (rest + 1) 0).set done.length (classRank file p.2) =
            (done ++ [classRank file p.2]) ++ List.replicate rest 0 := by
          rw [List.set_append_right _ _ (le_refl _), Nat.sub_self, List.replicate_succ, List.set_cons_zero,
            List.append_assoc, List.singleton_append]
        rw [hset]
        have := ih (done ++ [classRank file p.2]) rest
        rw [List.length_append, List.length_singleton] at this
        rw [this]
        by_cases hle : (us.filterMap (classOf file)).length ≤ rest
        · rw [if_pos hle, if_pos (by simpa using hle)]
          simp
        · rw [if_neg hle, if_neg (by simpa using hle)]

/-! ## Units -/

theorem foldl_max_le {F : Type} (topo : List (Arc F)) (k b : ℕ) (hk : k ≤ b)
    (h : ∀ a ∈ topo, a.stop - 1 ≤ b) : topo.foldl (fun n a => max n (a.stop - 1)) k ≤ b := by
  induction topo generalizing k with
  | nil => exact hk
  | cons a t ih =>
    exact ih _ (max_le hk (h a List.mem_cons_self)) fun x hx => h x (List.mem_cons_of_mem _ hx)

theorem le_foldl_max {F : Type} (topo : List (Arc F)) (k b : ℕ)
    (h : b ≤ k ∨ ∃ a ∈ topo, b ≤ a.stop - 1) : b ≤ topo.foldl (fun n a => max n (a.stop - 1)) k := by
  induction topo generalizing k with
  | nil =>
    rcases h with h | ⟨a, ha, -⟩
    · exact h
    · simp at ha
  | cons a t ih =>
    refine ih _ ?_
    rcases h with h | ⟨x, hx, hb⟩
    · exact Or.inl (le_trans h (le_max_left _ _))
    · rcases List.mem_cons.1 hx with rfl | hx
      · exact Or.inl (le_trans hb (le_max_right _ _))
      · exact Or.inr ⟨x, hx, hb⟩

theorem nStates_valid {F : Type} [LT F] [Zero F] (topo : List (Arc F)) (n : ℕ) (h : ValidTopo topo n) :
    nStates topo = n - 2 := by
  unfold nStates
  refine le_antisymm (foldl_max_le topo 0 _ (Nat.zero_le _) fun a ha => ?_) (le_foldl_max topo 0 _ ?_)
  · have := (h.below a ha).2
    omega
  · obtain ⟨a, ha, h1, -⟩ := h.exit
    refine Or.inr ⟨a, ha, ?_⟩
    omega

theorem flatten_block {α : Type} (S : ℕ)
    (pre : List α) (k : ℕ) (hpre : pre.length = k * S) (b : List α) (hbl : b.length = S) (rest : List α) :
    ((pre ++ b ++ rest).take ((k + 1) * S)).drop (k * S) = b := by
  rw [List.append_assoc, List.take_append, List.drop_append]
  have h1 : pre.length - (k + 1) * S = 0 := by
    rw [hpre]
    exact Nat.sub_eq_zero_of_le (Nat.mul_le_mul_right _ (Nat.le_succ k))
  have h2 : (pre.take ((k + 1) * S)) = pre := List.take_of_length_le (by
    rw [hpre]; exact Nat.mul_le_mul_right _ (Nat.le_succ k))
  rw [h2, List.drop_of_length_le (by omega), List.nil_append, hpre, Nat.sub_self, List.drop_zero]
  have h3 : (k + 1) * S - k * S = S := by rw [Nat.succ_mul]; omega
  rw [h3, List.take_append, hbl, Nat.sub_self, List.take_zero, List.append_nil]
  exact List.take_of_length_le (by omega)

end Verif.SPL
