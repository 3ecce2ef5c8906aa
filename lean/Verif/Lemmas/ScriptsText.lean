import Verif.Lemmas.Scripts
import Verif.Spec.Eval
import Mathlib.Data.List.Nodup

namespace Verif.Scripts

open Verif Pipeline ScriptSpec

/-! ## Units from pdf sequences -/

theorem unitLoop_eq (starts : List String) (m : List (String × String)) (f : String → String)
    (prev : String) (pdfs units : List String) (h : ∀ x ∈ pdfs, dictGet m x = .ok (f x)) :
    unitLoop starts m prev pdfs units = .ok (units ++
      (((pdfs.destutter' (· ≠ ·) prev).tail.filter (· ∈ starts)).map f)) := by
  have step : ∀ (pdfs : List String) (prev : String), ∃ t, pdfs.destutter' (· ≠ ·) prev = prev :: t := by
    intro pdfs
    induction pdfs with
    | nil => intro prev; exact ⟨[], rfl⟩
    | cons x pdfs ih =>
      intro prev
      rw [List.destutter']
      split
      · exact ⟨_, rfl⟩
      · exact ih prev
  induction pdfs generalizing prev units with
  | nil => simp [unitLoop, List.destutter']
  | cons x pdfs ih =>
    have hx := h x List.mem_cons_self
    have ht : ∀ y ∈ pdfs, dictGet m y = .ok (f y) := fun y hy => h y (List.mem_cons_of_mem _ hy)
    rw [unitLoop, List.destutter']
    by_cases hne : x = prev
    · subst hne
      rw [if_neg (by simp), if_neg (by simp), ih _ _ ht]
    · rw [if_pos (Ne.symm hne), List.tail_cons]
      obtain ⟨t, htt⟩ := step pdfs x
      by_cases hs : x ∈ starts
      · rw [if_pos ⟨hne, hs⟩, hx]
        dsimp only
        rw [ih _ _ ht, htt, List.tail_cons, List.filter_cons, if_pos (by simpa using hs), List.map_cons,
          List.append_assoc, List.singleton_append]
      · rw [if_neg (by tauto), ih _ _ ht, htt, List.tail_cons, List.filter_cons, if_neg (by simpa using hs)]

theorem destutter'_head {α : Type} [DecidableEq α] (l : List α) (a : α) :
    ∃ t, l.destutter' (· ≠ ·) a = a :: t := by
  induction l generalizing a with
  | nil => exact ⟨[], rfl⟩
  | cons x l ih =>
    rw [List.destutter']
    split
    · exact ⟨_, rfl⟩
    · exact ih a

/-- First pdf of a unit start, the others not: only the first counts. -/
theorem filter_starts (starts : List String) (seq : List (String × List String))
    (h : ∀ u ∈ seq, ∃ s t, u.2 = s :: t ∧ s ∈ starts ∧ ∀ x ∈ t, x ∉ starts) :
    (seq.flatMap Prod.snd).filter (· ∈ starts) = seq.map fun u => u.2.headD "" := by
  induction seq with
  | nil => rfl
  | cons u seq ih =>
    obtain ⟨s, t, h1, h2, h3⟩ := h u List.mem_cons_self
    rw [List.flatMap_cons, List.filter_append, ih fun v hv => h v (List.mem_cons_of_mem _ hv), h1,
      List.filter_cons, if_pos (by simpa using h2), List.filter_eq_nil_iff.2 (by
        intro x hx; simpa using h3 x hx), List.map_cons, h1]
    rfl

theorem stateToUnit_eq (starts : List String) (m : List (String × String)) (f : String → String)
    (pdfs : List String) (hm : ∀ x ∈ pdfs, dictGet m x = .ok (f x))
    (seq : List (String × List String)) (hne : seq ≠ [])
    (hu : ∀ u ∈ seq, ∃ s t, u.2 = s :: t ∧ s ∈ starts ∧ (∀ x ∈ t, x ∉ starts) ∧ f s = u.1)
    (hd : pdfs.destutter (· ≠ ·) = seq.flatMap Prod.snd) :
    stateToUnit pdfs starts m = .ok (seq.map Prod.fst) := by
  cases pdfs with
  | nil =>
    cases seq with
    | nil => exact absurd rfl hne
    | cons u seq =>
      obtain ⟨s, t, h1, _⟩ := hu u List.mem_cons_self
      rw [List.flatMap_cons, h1] at hd
      simp at hd
  | cons x pdfs =>
    unfold stateToUnit
    dsimp only
    rw [hm x List.mem_cons_self]
    dsimp only
    rw [unitLoop_eq starts m f x pdfs [f x] fun y hy => hm y (List.mem_cons_of_mem _ hy)]
    change pdfs.destutter' (· ≠ ·) x = _ at hd
    have hx : x ∈ starts := by
      obtain ⟨t', h'⟩ := destutter'_head pdfs x
      cases seq with
      | nil => exact absurd rfl hne
      | cons u seq =>
        obtain ⟨s, t, h1, h2, _⟩ := hu u List.mem_cons_self
        rw [h', List.flatMap_cons, h1] at hd
        simp only [List.cons_append, List.cons.injEq] at hd
        rw [hd.1]; exact h2
    have hall : [f x] ++ (((pdfs.destutter' (· ≠ ·) x).tail.filter (· ∈ starts)).map f) =
        ((pdfs.destutter' (· ≠ ·) x).filter (· ∈ starts)).map f := by
      obtain ⟨t', h'⟩ := destutter'_head pdfs x
      rw [h', List.tail_cons, List.filter_cons, if_pos (by simpa using hx)]
      rfl
    rw [hall, hd, filter_starts starts seq fun u huu => by
      obtain ⟨s, t, h1, h2, h3, _⟩ := hu u huu
      exact ⟨s, t, h1, h2, h3⟩]
    congr 1
    rw [List.map_map]
    apply List.map_congr_left
    intro u huu
    obtain ⟨s, t, h1, _, _, h4⟩ := hu u huu
    simp only [Function.comp, h1, List.headD_cons, h4]

/-- Reading a mapping file with the states of each unit next to each other. -/
theorem readMapping_block (name : String) (pdfs : List String) (lines : List (List String)) (prev : String)
    (m : List (String × String)) (starts : List String) (hp : prev = name)
    (hnd : (m.map Prod.fst ++ pdfs).Nodup) :
    readMapping (pdfs.map (fun p => [p, name]) ++ lines) prev m starts =
      readMapping lines name (m ++ pdfs.map fun p => (p, name)) starts := by
  induction pdfs generalizing m with
  | nil => simp [hp]
  | cons p pdfs ih =>
    rw [List.map_cons, List.cons_append, readMapping, if_neg (by simp [hp])]
    have hnew : p ∉ m.map Prod.fst := by
      intro hmem
      rw [List.nodup_append] at hnd
      exact hnd.2.2 p hmem p List.mem_cons_self rfl
    rw [dictSet_new _ _ _ hnew, ih _ (by simpa [List.append_assoc] using hnd)]
    simp

theorem readMapping_eq (units : List (String × List String)) (prev : String) (m : List (String × String))
    (starts : List String) (hne : ∀ u ∈ units, u.2 ≠ [])
    (hch : List.IsChain (· ≠ ·) (prev :: units.map Prod.fst))
    (hnd : (m.map Prod.fst ++ units.flatMap Prod.snd).Nodup) :
    readMapping (mappingLines units) prev m starts =
      .ok (m ++ units.flatMap (fun u => u.2.map fun p => (p, u.1)), starts ++ units.map fun u => u.2.headD "") := by
  induction units generalizing prev m starts with
  | nil => simp [mappingLines, readMapping]
  | cons u units ih =>
    obtain ⟨name, pdfs⟩ := u
    cases pdfs with
    | nil => exact absurd rfl (hne _ List.mem_cons_self)
    | cons p pdfs =>
      rw [List.map_cons, List.isChain_cons_cons] at hch
      simp only [List.flatMap_cons] at hnd
      have hnew : p ∉ m.map Prod.fst := by
        intro hmem
        rw [List.nodup_append] at hnd
        exact hnd.2.2 p hmem p (by simp) rfl
      unfold mappingLines
      rw [List.flatMap_cons]
      dsimp only
      rw [List.map_cons, List.cons_append, readMapping, if_pos (Ne.symm hch.1), dictSet_new _ _ _ hnew,
        readMapping_block _ _ _ _ _ _ rfl (by
          rw [← List.append_assoc] at hnd
          have h2 := (List.nodup_append.1 hnd).1
          simpa using h2)]
      have := ih name (m ++ [(p, name)] ++ pdfs.map fun p => (p, name)) (starts ++ [p])
        (fun v hv => hne v (List.mem_cons_of_mem _ hv)) hch.2 (by
          simpa [List.append_assoc, Function.comp_def] using hnd)
      unfold mappingLines at this
      rw [this]
      simp

/-! ## Phones from state sequences -/

theorem phoneLoop_eq (ends : List ℕ) (m : List (ℕ × String)) (f : ℕ → String) (cur : ℕ) (states : List ℕ)
    (phones : List String) (h : ∀ x ∈ cur :: states, dictGet m x = .ok (f x)) :
    phoneLoop ends m cur states phones = .ok (phones ++
      ((states.destutter' (· ≠ ·) cur).dropLast.filter (· ∈ ends)).map f ++
        [f ((states.destutter' (· ≠ ·) cur).getLastD 0)]) := by
  induction states generalizing cur phones with
  | nil => simp [phoneLoop, List.destutter', h cur List.mem_cons_self]
  | cons x states ih =>
    have hc := h cur List.mem_cons_self
    have hx : ∀ y ∈ x :: states, dictGet m y = .ok (f y) := fun y hy => h y (List.mem_cons_of_mem _ hy)
    obtain ⟨t, ht⟩ := destutter'_head states x
    rw [phoneLoop, List.destutter']
    by_cases hne : cur = x
    · subst hne
      rw [if_neg (by simp), if_neg (by simp), ih _ _ hx]
    · rw [if_pos hne]
      by_cases hs : cur ∈ ends
      · rw [if_pos ⟨hne, hs⟩, hc]
        dsimp only
        rw [ih _ _ hx, ht, List.dropLast_cons_cons, List.filter_cons, if_pos (by simpa using hs), List.map_cons]
        simp [List.getLastD]
      · rw [if_neg (by tauto), ih _ _ hx, ht, List.dropLast_cons_cons, List.filter_cons, if_neg (by simpa using hs)]
        simp [List.getLastD]

theorem foldl_set_range {α : Type} [DecidableEq α] (g : ℕ → α) (v : String) (l : List ℕ) (d : List (α × String))
    (hd : (d.map Prod.fst ++ l.map g).Nodup) :
    l.foldl (fun d j => dictSet d (g j) v) d = d ++ l.map fun j => (g j, v) := by
  induction l generalizing d with
  | nil => simp
  | cons j l ih =>
    have hnew : g j ∉ d.map Prod.fst := by
      intro hmem
      rw [List.nodup_append] at hd
      exact hd.2.2 _ hmem _ (by simp) rfl
    rw [List.foldl_cons, dictSet_new _ _ _ hnew, ih _ (by simpa [List.append_assoc] using hd)]
    simp

theorem statesOfUnit_nodup (n : ℕ) (ids : List ℕ) (h : ids.Nodup) : (ids.flatMap (statesOfUnit n)).Nodup := by
  rw [List.nodup_flatMap]
  refine ⟨fun i _ => ?_, ?_⟩
  · unfold statesOfUnit
    exact List.Nodup.map (fun a b hab => by simpa using hab) List.nodup_range
  · refine h.imp fun {a b} hab => ?_
    intro x hx hy
    unfold statesOfUnit at hx hy
    rw [List.mem_map] at hx hy
    obtain ⟨i, hi, rfl⟩ := hx
    obtain ⟨j, hj, he⟩ := hy
    rw [List.mem_range] at hi hj
    apply hab
    have h1 : (a * n + i) / n = a := by
      rw [mul_comm, Nat.mul_add_div (by omega), Nat.div_eq_of_lt hi, add_zero]
    have h2 : (b * n + j) / n = b := by
      rw [mul_comm, Nat.mul_add_div (by omega), Nat.div_eq_of_lt hj, add_zero]
    rw [← h1, ← h2, he]

theorem statePhoneMap_eq (phoneMap : List (ℕ × String)) (n : ℕ) (h : (phoneMap.map Prod.fst).Nodup) :
    statePhoneMap phoneMap n = phoneMap.flatMap fun p => (statesOfUnit n p.1).map fun s => (s, p.2) := by
  have key : ∀ (l : List (ℕ × String)) (d : List (ℕ × String)),
      (d.map Prod.fst ++ (l.map Prod.fst).flatMap (statesOfUnit n)).Nodup →
      l.foldl (fun d p => (List.range n).foldl (fun d j => dictSet d (p.1 * n + j) p.2) d) d =
        d ++ l.flatMap fun p => (statesOfUnit n p.1).map fun s => (s, p.2) := by
    intro l
    induction l with
    | nil => intro d _; simp
    | cons p l ih =>
      intro d hd
      rw [List.map_cons, List.flatMap_cons, ← List.append_assoc] at hd
      rw [List.foldl_cons, foldl_set_range (fun j => p.1 * n + j) p.2 (List.range n) d
        (List.nodup_append.1 hd).1, ih _ (by
          simpa [statesOfUnit, Function.comp_def] using hd)]
      simp [statesOfUnit, Function.comp_def]
  unfold statePhoneMap
  rw [key _ _ (by simpa using statesOfUnit_nodup n _ h)]
  simp

theorem statePhoneMap_get (phoneMap : List (ℕ × String)) (n : ℕ) (h : (phoneMap.map Prod.fst).Nodup)
    (i : ℕ) (name : String) (hi : (i, name) ∈ phoneMap) (s : ℕ) (hs : s ∈ statesOfUnit n i) :
    dictGet (statePhoneMap phoneMap n) s = .ok name := by
  rw [statePhoneMap_eq _ _ h]
  apply dictGet_of_mem
  · have := statesOfUnit_nodup n _ h
    rw [List.map_flatMap]
    rw [List.flatMap_map] at this
    simpa [Function.comp_def] using this
  · rw [List.mem_flatMap]
    exact ⟨(i, name), hi, List.mem_map.2 ⟨s, hs, rfl⟩⟩

theorem mem_endStates (phoneMap : List (ℕ × String)) (n : ℕ) (h : (phoneMap.map Prod.fst).Nodup) (hn : 0 < n)
    (s : ℕ) : s ∈ endStates (statePhoneMap phoneMap n) n ↔ ∃ i ∈ phoneMap.map Prod.fst, s = i * n + (n - 1) := by
  unfold endStates
  rw [statePhoneMap_eq _ _ h]
  simp only [List.mem_map, List.mem_filter, List.mem_flatMap, decide_eq_true_eq, statesOfUnit, List.mem_range]
  constructor
  · rintro ⟨k, ⟨⟨q, ⟨p, hp, s', ⟨j, hj, rfl⟩, rfl⟩, rfl⟩, hk⟩, rfl⟩
    refine ⟨p.1, ⟨p, hp, rfl⟩, ?_⟩
    dsimp only at hk ⊢
    rw [mul_comm, Nat.mul_add_mod, Nat.mod_eq_of_lt hj] at hk
    subst hk
    omega
  · rintro ⟨i, ⟨p, hp, rfl⟩, rfl⟩
    refine ⟨p.1 * n, ⟨⟨(p.1 * n, p.2), ⟨p, hp, p.1 * n, ⟨0, hn, by simp⟩, rfl⟩, rfl⟩, by simp⟩, by omega⟩

theorem filter_ends (ends : List ℕ) (n : ℕ) (hn : 0 < n) (seq : List ℕ)
    (h : ∀ i ∈ seq, ∀ j < n, i * n + j ∈ ends ↔ j = n - 1) :
    (seq.flatMap (statesOfUnit n)).filter (· ∈ ends) = seq.map fun i => i * n + (n - 1) := by
  induction seq with
  | nil => rfl
  | cons i seq ih =>
    rw [List.flatMap_cons, List.filter_append, ih fun v hv => h v (List.mem_cons_of_mem _ hv), List.map_cons]
    have hi := h i List.mem_cons_self
    obtain ⟨k, rfl⟩ : ∃ k, n = k + 1 := ⟨n - 1, by omega⟩
    have h0 : (statesOfUnit (k + 1) i).filter (· ∈ ends) = [i * (k + 1) + k] := by
      unfold statesOfUnit
      rw [List.range_succ, List.map_append, List.filter_append, List.filter_eq_nil_iff.2, List.nil_append,
        List.map_singleton, List.filter_cons, if_pos (by simpa using (hi k (by omega)).2 (by omega)),
        List.filter_nil]
      intro x hx
      obtain ⟨j, hj, rfl⟩ := List.mem_map.1 hx
      rw [List.mem_range] at hj
      have := (hi j (by omega)).not.2 (by omega)
      simpa using this
    rw [h0]
    rfl

theorem statesOfUnit_div (n i s : ℕ) (h : s ∈ statesOfUnit n i) : s / n = i ∧ s % n < n ∧ s = i * n + s % n := by
  unfold statesOfUnit at h
  obtain ⟨j, hj, rfl⟩ := List.mem_map.1 h
  rw [List.mem_range] at hj
  rw [mul_comm, Nat.mul_add_div (by omega), Nat.div_eq_of_lt hj, Nat.mul_add_mod, Nat.mod_eq_of_lt hj]
  exact ⟨by simp, hj, rfl⟩

theorem statesLine_eq (phoneMap : List (ℕ × String)) (n : ℕ) (hn : 0 < n) (h : (phoneMap.map Prod.fst).Nodup)
    (seq : List (ℕ × String)) (hne : seq ≠ []) (hseq : ∀ p ∈ seq, p ∈ phoneMap) (ids : List ℕ)
    (hd : ids.destutter (· ≠ ·) = seq.flatMap fun p => statesOfUnit n p.1) :
    statesLine phoneMap n ids = .ok (seq.map Prod.snd) := by
  -- a name for each state
  let f : ℕ → String := fun s => ((phoneMap.find? fun p => p.1 = s / n).map Prod.snd).getD ""
  have hf : ∀ p ∈ seq, ∀ s ∈ statesOfUnit n p.1, f s = p.2 ∧ dictGet (statePhoneMap phoneMap n) s = .ok p.2 := by
    intro p hp s hs
    refine ⟨?_, statePhoneMap_get _ _ h _ _ (hseq p hp) _ hs⟩
    have h1 := dictGet_of_mem phoneMap p.1 p.2 h (hseq p hp)
    unfold dictGet at h1
    change ((phoneMap.find? fun p => p.1 = s / n).map Prod.snd).getD "" = p.2
    rw [(statesOfUnit_div n p.1 s hs).1]
    split at h1
    · rename_i q hq
      rw [hq]
      exact Except.ok.inj h1
    · cases h1
  have hids : ∀ x ∈ ids, dictGet (statePhoneMap phoneMap n) x = .ok (f x) := by
    intro x hx
    have : x ∈ ids.destutter (· ≠ ·) := by
      cases ids with
      | nil => simp at hx
      | cons c cs =>
        clear hd
        change x ∈ cs.destutter' (· ≠ ·) c
        induction cs generalizing c with
        | nil => simpa using hx
        | cons y ys ih =>
          rw [List.destutter']
          by_cases hcy : c = y
          · subst hcy
            rw [if_neg (by simp)]
            exact ih c (by simpa using hx)
          · rw [if_pos hcy]
            rw [List.mem_cons] at hx ⊢
            rcases hx with rfl | hx
            · exact Or.inl rfl
            · exact Or.inr (ih y hx)
    rw [hd, List.mem_flatMap] at this
    obtain ⟨p, hp, hx2⟩ := this
    obtain ⟨h1, h2⟩ := hf p hp x hx2
    rw [h2, h1]
  have hends : ∀ i ∈ seq.map Prod.fst, ∀ j < n,
      i * n + j ∈ endStates (statePhoneMap phoneMap n) n ↔ j = n - 1 := by
    intro i hi j hj
    rw [mem_endStates _ _ h hn]
    constructor
    · rintro ⟨i', _, he⟩
      have h1 : (i * n + j) % n = j := by rw [mul_comm, Nat.mul_add_mod, Nat.mod_eq_of_lt hj]
      have h2 : (i' * n + (n - 1)) % n = n - 1 := by
        rw [mul_comm, Nat.mul_add_mod, Nat.mod_eq_of_lt (by omega)]
      rw [← h1, he, h2]
    · intro hjn
      obtain ⟨p, hp, rfl⟩ := List.mem_map.1 hi
      exact ⟨p.1, List.mem_map.2 ⟨p, hseq p hp, rfl⟩, by rw [hjn]⟩
  cases ids with
  | nil =>
    cases seq with
    | nil => exact absurd rfl hne
    | cons p seq =>
      rw [List.flatMap_cons] at hd
      have : (statesOfUnit n p.1).length = 0 := by
        have := congrArg List.length hd
        simp at this
        omega
      simp [statesOfUnit] at this
      omega
  | cons c cs =>
    unfold statesLine stateToPhone
    dsimp only
    rw [phoneLoop_eq _ _ f c cs [] hids]
    change cs.destutter' (· ≠ ·) c = _ at hd
    have hflat : (seq.flatMap fun p => statesOfUnit n p.1) = (seq.map Prod.fst).flatMap (statesOfUnit n) := by
      rw [List.flatMap_map]
    -- the last state is an end state
    have hlast : ∃ front p, p ∈ seq ∧ cs.destutter' (· ≠ ·) c = front ++ [p.1 * n + (n - 1)] := by
      rcases List.eq_nil_or_concat seq with h0 | ⟨s0, p, h0⟩
      · exact absurd h0 hne
      · obtain ⟨k, rfl⟩ : ∃ k, n = k + 1 := ⟨n - 1, by omega⟩
        refine ⟨(s0.flatMap fun p => statesOfUnit (k + 1) p.1) ++ (List.range k).map (fun j => p.1 * (k + 1) + j),
          p, by rw [h0]; simp, ?_⟩
        rw [hd, h0]
        simp [statesOfUnit, List.range_succ]
    obtain ⟨front, p, hp, hfr⟩ := hlast
    have hfil := filter_ends (endStates (statePhoneMap phoneMap n) n) n hn (seq.map Prod.fst) hends
    rw [← hflat, ← hd, hfr, List.filter_append, List.filter_cons, if_pos (by
      have := (hends p.1 (List.mem_map.2 ⟨p, hp, rfl⟩) (n - 1) (by omega)).2 rfl
      simpa using this), List.filter_nil] at hfil
    rw [hfr, List.dropLast_concat]
    have h2 := congrArg (List.map f) hfil
    rw [List.map_append] at h2
    simp only [List.nil_append, List.getLastD_concat]
    rw [show [f (p.1 * n + (n - 1))] = List.map f [p.1 * n + (n - 1)] from rfl, h2, List.map_map, List.map_map]
    congr 1
    apply List.map_congr_left
    intro q hq
    simp only [Function.comp]
    exact (hf q hq _ (by
      unfold statesOfUnit
      exact List.mem_map.2 ⟨n - 1, List.mem_range.2 (by omega), rfl⟩)).1

/-! ## Lexicon -/

theorem loadLexicon_eq (lines : List (List String)) (d : List (String × List String)) :
    loadLexicon lines d = Eval.loadTranscript lines d := by
  induction lines generalizing d with
  | nil => rfl
  | cons l lines ih =>
    cases l with
    | nil => rfl
    | cons w ph => rw [loadLexicon, Eval.loadTranscript, ih]

theorem phoneTrans_eq (lex : List (String × List String)) (addSil : Bool) (lines : List (List String)) :
    phoneTrans lex addSil lines = if [] ∈ lines then .error .indexError else
      .ok ((lines.filter fun l => l.tail.all fun w => (lex.lookup w).isSome).map fun l =>
        l.headD "" :: ((if addSil then ["sil"] else []) ++ (l.tail.flatMap fun w => (lex.lookup w).getD []) ++
          (if addSil then ["sil"] else []))) := by
  induction lines with
  | nil => simp [phoneTrans]
  | cons l lines ih =>
    cases l with
    | nil => simp [phoneTrans]
    | cons u ws =>
      rw [phoneTrans, ih]
      by_cases hm : [] ∈ lines
      · simp [hm]
      · have hm2 : [] ∉ (u :: ws) :: lines := by simpa using hm
        simp only [if_neg hm, if_neg hm2]
        by_cases hw : ws.all fun w => (lex.lookup w).isSome
        · rw [Eval.listComp_ok (dictGet lex) (fun w => (lex.lookup w).getD []) ws (by
            intro w hww
            have := List.all_eq_true.1 hw w hww
            rw [Eval.dictGet_lookup]
            cases h : lex.lookup w with
            | none => rw [h] at this; simp at this
            | some v => rfl)]
          rw [List.filter_cons_of_pos (by exact hw)]
          cases addSil <;> simp [List.flatMap_def]
        · rw [Eval.listComp_error (dictGet lex) .keyError ws (by
            intro w _ e he
            rw [Eval.dictGet_lookup] at he
            split at he
            · cases he
            · cases he; rfl) (by
            rw [Bool.not_eq_true, List.all_eq_false] at hw
            obtain ⟨w, hww, h⟩ := hw
            refine ⟨w, hww, .keyError, ?_⟩
            rw [Eval.dictGet_lookup]
            cases h2 : lex.lookup w with
            | none => rfl
            | some v => rw [h2] at h; simp at h)]
          rw [List.filter_cons_of_neg (by exact hw)]

end Verif.Scripts
