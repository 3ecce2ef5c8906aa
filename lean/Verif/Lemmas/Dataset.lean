import Verif.Model.Dataset
import Verif.Lemmas.Pipeline
import Verif.Lemmas.Eval

/-!
# Lemmas on names and archives
-/

namespace Verif.Dataset

open Verif Pipeline

variable {F : Type}

theorem removeAux_all (pat : Name) (n : ℕ) (l : Name) (h : l.length ≤ n) : removeAux pat n l = [] := by
  induction l generalizing n with
  | nil => cases n <;> rfl
  | cons c l ih =>
    cases n with
    | zero => simp at h
    | succ n => exact ih n (by simpa using h)

theorem remove_suffix (ext u : Name) (hext : '.' ∉ ext) (hu : ¬ ('.' :: ext) <:+: u) :
    remove ('.' :: ext) (u ++ '.' :: ext) = u := by
  unfold remove
  induction u with
  | nil =>
    show (if ('.' :: ext) <+: '.' :: ext then removeAux _ (('.' :: ext).length - 1) ext else _) = _
    rw [if_pos (List.prefix_refl _)]
    exact removeAux_all _ _ _ (by simp)
  | cons c u ih =>
    have hnot : ¬ ('.' :: ext) <+: c :: (u ++ '.' :: ext) := by
      intro h
      have h2 : (c :: u) <+: c :: (u ++ '.' :: ext) := ⟨'.' :: ext, rfl⟩
      rcases List.prefix_or_prefix_of_prefix h h2 with h3 | h3
      · exact hu h3.isInfix
      · obtain ⟨t, ht⟩ := h3
        obtain ⟨t', ht'⟩ := h
        have h4 : c :: u ++ (t ++ t') = c :: u ++ '.' :: ext := by
          rw [← List.append_assoc, ht]
          exact ht'
        have h5 : t ++ t' = '.' :: ext := List.append_cancel_left h4
        cases t with
        | nil =>
          rw [List.append_nil] at ht
          exact hu (by rw [ht])
        | cons d t =>
          have hd : d = '.' := by
            have := congrArg List.head? h5
            simpa using this
          rw [hd] at ht
          have := congrArg List.tail ht
          simp only [List.cons_append, List.tail_cons] at this
          exact hext (by rw [← this]; simp)
    show (if ('.' :: ext) <+: c :: (u ++ '.' :: ext) then _ else c :: removeAux _ 0 (u ++ '.' :: ext)) = _
    rw [if_neg hnot, ih fun h => hu (h.trans (List.suffix_cons c u).isInfix)]

theorem extractDir_new (utts dir : List (Name × F)) (hs : ∀ p ∈ utts, ¬ npy <:+ p.1)
    (hn : (utts.map Prod.fst).Nodup) (hd : ∀ p ∈ utts, p.1 ++ npy ∉ dir.map Prod.fst) :
    extractDir utts dir = dir ++ utts.map fun p => (p.1 ++ npy, p.2) := by
  induction utts generalizing dir with
  | nil => simp [extractDir]
  | cons p utts ih =>
    obtain ⟨u, f⟩ := p
    rw [List.map_cons, List.nodup_cons] at hn
    unfold extractDir saveName
    rw [if_neg (hs _ List.mem_cons_self), dictSet_new _ _ _ (hd _ List.mem_cons_self),
      ih _ (fun p hp => hs p (List.mem_cons_of_mem _ hp)) hn.2]
    · simp
    · intro p hp
      rw [List.map_append, List.mem_append]
      rintro (h | h)
      · exact hd p (List.mem_cons_of_mem _ hp) h
      · simp only [List.map_cons, List.map_nil, List.mem_singleton] at h
        have h2 := List.append_cancel_right h
        exact hn.1 (by rw [← h2]; exact List.mem_map.2 ⟨p, hp, rfl⟩)

theorem entry_of_mem (zip : List (Name × F)) (hn : (zip.map Prod.fst).Nodup) (u : Name) (f : F)
    (h : (u, f) ∈ zip) : entry zip u = some f := by
  unfold entry
  cases h1 : zip.reverse.find? (fun e => e.1 = u) with
  | none =>
    rw [List.find?_eq_none] at h1
    have := h1 (u, f) (List.mem_reverse.2 h)
    simp at this
  | some e =>
    have h2 := List.mem_reverse.1 (List.mem_of_find?_eq_some h1)
    have h3 : e.1 = u := by simpa using List.find?_some h1
    have h4 : e = (u, f) := List.inj_on_of_nodup_map hn h2 h h3
    rw [h4]
    rfl

theorem entry_none (zip : List (Name × F)) (u : Name) (h : u ∉ zip.map Prod.fst) : entry zip u = none := by
  unfold entry
  rw [Option.map_eq_none_iff, List.find?_eq_none]
  intro e he
  simp only [decide_eq_true_eq]
  intro h1
  exact h (List.mem_map.2 ⟨e, List.mem_reverse.1 he, h1⟩)

theorem loop_all (utts : List Name) (zip : List (Name × F)) (g : Name → F)
    (h : ∀ u ∈ utts, load zip u = .ok (g u)) (fuel idx : ℕ) (hf : utts.length < fuel + idx) (hi : idx ≤ utts.length) :
    loop utts zip fuel idx = .ok (some ((utts.drop idx).map fun u => (u, g u))) := by
  induction fuel generalizing idx with
  | zero => omega
  | succ fuel ih =>
    unfold loop next
    by_cases hlt : idx < utts.length
    · rw [List.getElem?_eq_getElem hlt]
      dsimp only
      rw [h _ (List.getElem_mem hlt)]
      dsimp only
      rw [ih (idx + 1) (by omega) hlt, List.drop_eq_getElem_cons hlt]
      rfl
    · rw [List.getElem?_eq_none (by omega)]
      dsimp only
      rw [List.drop_of_length_le (l := utts) (by omega)]
      rfl

end Verif.Dataset
