import Verif.Model.NetConf
import Verif.Spec.NetConf
import Verif.Lemmas.Eval

namespace Verif.NetConf

open Verif Pipeline NetConfSpec

theorem splitOn_cons_ne (sep : Char) (s : List Char) : ∃ p ps, splitOn sep s = p :: ps := by
  cases s with
  | nil => exact ⟨_, _, rfl⟩
  | cons c cs =>
    unfold splitOn
    split
    · exact ⟨_, _, rfl⟩
    · split <;> exact ⟨_, _, rfl⟩

theorem splitOn_append (sep : Char) (a b : List Char) (h : sep ∉ a) :
    splitOn sep (a ++ sep :: b) = a :: splitOn sep b := by
  induction a with
  | nil => simp [splitOn]
  | cons c a ih =>
    rw [List.mem_cons, not_or] at h
    rw [List.cons_append, splitOn, if_neg (Ne.symm h.1), ih h.2]

theorem splitOn_none (sep : Char) (a : List Char) (h : sep ∉ a) : splitOn sep a = [a] := by
  induction a with
  | nil => rfl
  | cons c a ih =>
    rw [List.mem_cons, not_or] at h
    rw [splitOn, if_neg (Ne.symm h.1), ih h.2]

theorem splitOn_join (sep : Char) (ps : List (List Char)) (hne : ps ≠ []) (h : ∀ p ∈ ps, sep ∉ p) :
    splitOn sep (joinWith sep ps) = ps := by
  induction ps with
  | nil => exact absurd rfl hne
  | cons p ps ih =>
    cases ps with
    | nil => exact splitOn_none sep p (h p List.mem_cons_self)
    | cons q ps =>
      rw [joinWith, splitOn_append _ _ _ (h p List.mem_cons_self),
        ih (by simp) fun x hx => h x (List.mem_cons_of_mem _ hx)]
      simp

theorem splitOn_length (sep : Char) (s : List Char) : (splitOn sep s).length = s.count sep + 1 := by
  induction s with
  | nil => rfl
  | cons c s ih =>
    unfold splitOn
    by_cases h : c = sep
    · subst h
      rw [if_pos rfl, List.length_cons, ih, List.count_cons_self]
    · rw [if_neg h, List.count_cons_of_ne (by simpa using h), ← ih]
      obtain ⟨p, ps, hp⟩ := splitOn_cons_ne sep s
      rw [hp]
      rfl

theorem mem_joinWith (sep c : Char) (ps : List (List Char)) (h : c ∈ joinWith sep ps) :
    c = sep ∨ ∃ p ∈ ps, c ∈ p := by
  induction ps with
  | nil => simp [joinWith] at h
  | cons p ps ih =>
    cases ps with
    | nil => exact Or.inr ⟨p, List.mem_cons_self, h⟩
    | cons q ps =>
      rw [joinWith, List.mem_append, List.mem_cons] at h
      · rcases h with h | h | h
        · exact Or.inr ⟨p, List.mem_cons_self, h⟩
        · exact Or.inl h
        · rcases ih h with h | ⟨x, hx, hc⟩
          · exact Or.inl h
          · exact Or.inr ⟨x, List.mem_cons_of_mem _ hx, hc⟩
      · simp

theorem parseArgs_eq (kwargs : List (List Char × List Char)) (d : List (List Char × List Char))
    (h : ∀ p ∈ kwargs, '=' ∉ p.1 ∧ '=' ∉ p.2) :
    parseArgs (kwargs.map fun p => p.1 ++ '=' :: p.2) d =
      .ok (kwargs.foldl (fun d p => dictSet d p.1 p.2) d) := by
  induction kwargs generalizing d with
  | nil => rfl
  | cons p kwargs ih =>
    obtain ⟨h1, h2⟩ := h p List.mem_cons_self
    rw [List.map_cons, parseArgs, splitOn_append _ _ _ h1, splitOn_none _ _ h2]
    dsimp only
    rw [ih _ fun q hq => h q (List.mem_cons_of_mem _ hq)]
    rfl

theorem parseArgs_error (args : List (List Char)) (d : List (List Char × List Char))
    (h : ∃ a ∈ args, a.count '=' ≠ 1) : parseArgs args d = .error .valueError := by
  induction args generalizing d with
  | nil => simp at h
  | cons a args ih =>
    rw [parseArgs]
    split
    · rename_i name val hs
      have hl := splitOn_length '=' a
      rw [hs] at hl
      obtain ⟨b, hb, hc⟩ := h
      rw [List.mem_cons] at hb
      rcases hb with rfl | hb
      · simp at hl; omega
      · exact ih _ ⟨b, hb, hc⟩
    · rfl

theorem foldl_dictSet_nodup_eq (l d : List (List Char × List Char))
    (h : ((d ++ l).map Prod.fst).Nodup) : l.foldl (fun d p => dictSet d p.1 p.2) d = d ++ l := by
  induction l generalizing d with
  | nil => simp
  | cons p l ih =>
    have hnew : p.1 ∉ d.map Prod.fst := by
      rw [List.map_append, List.nodup_append] at h
      intro hm
      exact h.2.2 _ hm _ (by simp) rfl
    rw [List.foldl_cons, dictSet_new _ _ _ hnew, ih _ (by simpa [List.append_assoc] using h)]
    simp

theorem parse_render (s name : List Char) (kwargs : List (List Char × List Char))
    (hs : s.filter (fun c => !c.isWhitespace) = render ';' name kwargs) (hn : ':' ∉ name)
    (h : ∀ p ∈ kwargs, (∀ c ∈ p.1, c ≠ ':' ∧ c ≠ ';' ∧ c ≠ '=') ∧ ∀ c ∈ p.2, c ≠ ':' ∧ c ≠ ';' ∧ c ≠ '=') :
    parseElement s = .ok (name, kwargs.foldl (fun d p => dictSet d p.1 p.2) []) := by
  unfold parseElement
  dsimp only
  rw [hs]
  unfold render
  by_cases hk : kwargs = []
  · subst hk
    simp [hn]
  · rw [if_neg hk, if_pos (by simp), splitOn_append _ _ _ hn, splitOn_none]
    · dsimp only
      rw [splitOn_join _ _ (by simpa using hk), parseArgs_eq]
      · intro p hp
        exact ⟨fun hc => ((h p hp).1 _ hc).2.2 rfl, fun hc => ((h p hp).2 _ hc).2.2 rfl⟩
      · intro q hq
        obtain ⟨p, hp, rfl⟩ := List.mem_map.1 hq
        intro hc
        rw [List.mem_append, List.mem_cons] at hc
        rcases hc with hc | hc | hc
        · exact ((h p hp).1 _ hc).2.1 rfl
        · exact absurd hc (by decide)
        · exact ((h p hp).2 _ hc).2.1 rfl
    · intro hc
      rcases mem_joinWith _ _ _ hc with hc | ⟨q, hq, hc⟩
      · exact absurd hc (by decide)
      · obtain ⟨p, hp, rfl⟩ := List.mem_map.1 hq
        rw [List.mem_append, List.mem_cons] at hc
        rcases hc with hc | hc | hc
        · exact ((h p hp).1 _ hc).1 rfl
        · exact absurd hc (by decide)
        · exact ((h p hp).2 _ hc).1 rfl

/-- `=` signs of arguments joined without `;`. -/
theorem count_join (kwargs : List (List Char × List Char)) (sep : Char) (hsep : sep ≠ '=')
    (h : ∀ p ∈ kwargs, '=' ∉ p.1 ∧ '=' ∉ p.2) :
    (joinWith sep (kwargs.map fun p => p.1 ++ '=' :: p.2)).count '=' = kwargs.length := by
  induction kwargs with
  | nil => rfl
  | cons p kwargs ih =>
    have hp := h p List.mem_cons_self
    have h1 : (p.1 ++ '=' :: p.2).count '=' = 1 := by
      rw [List.count_append, List.count_cons_self, List.count_eq_zero.2 hp.1, List.count_eq_zero.2 hp.2]
    cases kwargs with
    | nil => exact h1
    | cons q kwargs =>
      rw [List.map_cons, List.map_cons, joinWith]
      · have ih' := ih fun x hx => h x (List.mem_cons_of_mem _ hx)
        rw [List.map_cons] at ih'
        rw [List.count_append, h1, List.count_cons_of_ne (by simpa using hsep), ih']
        simp
        omega
      · simp

theorem listComp_fails {α β : Type} (f : α → Except Err β) (l : List α) (x : α) (hx : x ∈ l)
    (h : ∃ e, f x = .error e) : ∃ e, Eval.listComp f l = .error e := by
  induction l with
  | nil => simp at hx
  | cons y l ih =>
    rw [Eval.listComp]
    cases hy : f y with
    | error e => exact ⟨e, rfl⟩
    | ok b =>
      dsimp only
      rcases List.mem_cons.1 hx with rfl | hx
      · obtain ⟨e, h⟩ := h
        rw [h] at hy
        exact absurd hy (by simp)
      · obtain ⟨e, h'⟩ := ih hx
        rw [h']
        exact ⟨e, rfl⟩

/-! ## Forward -/

section

variable {V : Type} [AddCommMonoid V]

theorem foldl_zip_sum (l : List (V × (V → V))) (a : V) :
    l.foldl (fun acc p => acc + p.2 p.1) a = a + (l.map fun p => p.2 p.1).sum := by
  induction l generalizing a with
  | nil => simp
  | cons p l ih => rw [List.foldl_cons, ih, List.map_cons, List.sum_cons, add_assoc]

omit [AddCommMonoid V] in
theorem seqForward_single {M : Type} (forward : M → V → Except Err V) (f : M → V → V) (ms : List M)
    (h : ∀ m ∈ ms, ∀ x, forward m x = .ok (f m x)) (x : V) :
    seqForward forward ms x = .ok (ms.foldl (fun h m => f m h) x) := by
  induction ms generalizing x with
  | nil => rfl
  | cons m ms ih =>
    rw [seqForward, h m List.mem_cons_self]
    dsimp only
    rw [ih fun m' hm => h m' (List.mem_cons_of_mem _ hm)]
    rfl

end

theorem tanh_lt_one (x : ℝ) : |Real.tanh x| < 1 := by
  rw [Real.tanh_eq_sinh_div_cosh, abs_div, abs_of_pos (Real.cosh_pos x), div_lt_one (Real.cosh_pos x), abs_lt]
  rw [Real.cosh_eq, Real.sinh_eq]
  have h1 := Real.exp_pos x
  have h2 := Real.exp_pos (-x)
  constructor <;> linarith

theorem resNet_near {D W : ℕ} (blocks : List (Nnet.Linear D W × Nnet.Linear W D)) (x : Fin D → ℝ) (d : Fin D) :
    |resNet blocks x d - x d| ≤ blocks.length ∧ (blocks ≠ [] → |resNet blocks x d - x d| < blocks.length) := by
  unfold resNet
  induction blocks generalizing x with
  | nil => simp
  | cons b blocks ih =>
    have h := (ih (resBlock Real.tanh b.1 b.2 x)).1
    have h1 : |resBlock Real.tanh b.1 b.2 x d - x d| < 1 := by
      unfold resBlock
      dsimp only
      rw [add_sub_cancel_right]
      exact tanh_lt_one _
    rw [List.foldl_cons, List.length_cons, Nat.cast_add, Nat.cast_one]
    have h3 : |blocks.foldl (fun h b => resBlock Real.tanh b.1 b.2 h) (resBlock Real.tanh b.1 b.2 x) d - x d|
        < blocks.length + 1 := by
      calc _ ≤ |blocks.foldl (fun h b => resBlock Real.tanh b.1 b.2 h) (resBlock Real.tanh b.1 b.2 x) d -
              resBlock Real.tanh b.1 b.2 x d| + |resBlock Real.tanh b.1 b.2 x d - x d| := abs_sub_le _ _ _
        _ < _ := add_lt_add_of_le_of_lt h h1
    exact ⟨h3.le, fun _ => h3⟩

end Verif.NetConf
