import Verif.Lemmas.Recipes
import Mathlib.Tactic.Linarith

/-!
# C142, C143: stacked features, transcriptions and labels as numbers
-/

namespace Verif.Props

open Verif Pipeline Recipes

/-! ## C142: stacked features -/

/-- The frame at place `i + k - c`, the first one before the beginning and the last one after the end. -/
def frameAt {α : Type} (data : List (List α)) (c i k : ℕ) : List α :=
  data.getD (min (i + k - c) (data.length - 1)) []

theorem padded_get {α : Type} (data : List (List α)) (first last : List α) (hf : data.head? = some first)
    (hl : data.getLast? = some last) (c i k : ℕ) (hi : i < data.length) (hk : k < 2 * c + 1) :
    (List.replicate c first ++ data ++ List.replicate c last)[i + k]? = some (frameAt data c i k) := by
  unfold frameAt
  rw [List.getD_eq_getElem?_getD]
  by_cases h1 : i + k < c
  · rw [List.append_assoc, List.getElem?_append_left (by rw [List.length_replicate]; exact h1),
      List.getElem?_replicate_of_lt h1]
    rw [show i + k - c = 0 by omega, Nat.zero_min, ← List.head?_eq_getElem?, hf]
    rfl
  · by_cases h2 : i + k < c + data.length
    · rw [List.append_assoc, List.getElem?_append_right (by rw [List.length_replicate]; omega),
        List.length_replicate, List.getElem?_append_left (by omega),
        show min (i + k - c) (data.length - 1) = i + k - c by omega]
      rw [List.getElem?_eq_getElem (by omega)]
      rfl
    · rw [List.getElem?_append_right (by rw [List.length_append, List.length_replicate]; omega),
        List.getElem?_replicate_of_lt (by rw [List.length_append, List.length_replicate]; omega)]
      rw [show min (i + k - c) (data.length - 1) = data.length - 1 by omega, ← List.getLast?_eq_getElem?, hl]
      rfl

/-- Frame `i` of the stacked features is the frames `i - c` to `i + c` in this order, where the first and the last one
are repeated at the edges. -/
theorem C142_stack {α : Type} (data : List (List α)) (hd : data ≠ []) (c : ℕ) :
    stackFeatures data c = .ok ((List.range data.length).map fun i =>
      ((List.range (2 * c + 1)).map (frameAt data c i)).flatten) := by
  obtain ⟨first, hf⟩ : ∃ first, data.head? = some first := by
    cases data with
    | nil => exact absurd rfl hd
    | cons x _ => exact ⟨x, rfl⟩
  have hl : data.getLast? = some (data.getLast hd) := List.getLast?_eq_some_getLast hd
  by_cases hc : c = 0
  · subst hc
    unfold stackFeatures
    rw [if_pos (by simp)]
    congr 1
    apply List.ext_getElem
    · simp
    · intro i h1 h2
      simp only [List.getElem_map, List.getElem_range]
      simp only [Nat.mul_zero, Nat.zero_add, List.range_one, List.map_cons, List.map_nil, List.flatten_cons,
        List.flatten_nil, List.append_nil]
      unfold frameAt
      rw [List.getD_eq_getElem?_getD, show min (i + 0 - 0) (data.length - 1) = i by omega,
        List.getElem?_eq_getElem h1]
      rfl
  · unfold stackFeatures
    rw [if_neg (by exact_mod_cast hc), hf, hl]
    simp only
    rw [if_neg (by omega)]
    congr 1
    apply List.map_congr_left
    intro i hi
    rw [List.mem_range] at hi
    congr 1
    rw [Int.toNat_natCast]
    apply List.ext_getElem?
    intro k
    rw [List.getElem?_take]
    by_cases hk : k < 2 * c + 1
    · rw [if_pos hk, List.getElem?_drop, padded_get data first _ hf hl c i k hi hk, List.getElem?_map,
        List.getElem?_range hk]
      rfl
    · rw [if_neg hk, List.getElem?_eq_none (by simp; omega)]

example : stackFeatures [[1, 10], [2, 20], [3, 30]] 1 =
    .ok [[1, 10, 1, 10, 2, 20], [1, 10, 2, 20, 3, 30], [2, 20, 3, 30, 3, 30]] := by decide +kernel

theorem flatten_block {α : Type} (d : ℕ) : ∀ (l : List (List α)), (∀ x ∈ l, x.length = d) →
    l.flatten.length = l.length * d ∧ ∀ (k : ℕ) (x : List α), l[k]? = some x → (l.flatten.drop (k * d)).take d = x
  | [], _ => ⟨by simp, by simp⟩
  | y :: l, h => by
    have hy : y.length = d := h y (by simp)
    obtain ⟨h1, h2⟩ := flatten_block d l fun x hx => h x (by simp [hx])
    refine ⟨by rw [List.flatten_cons, List.length_append, h1, hy, List.length_cons]; ring_nf, ?_⟩
    intro k x hk
    match k with
    | 0 =>
      simp only [List.getElem?_cons_zero, Option.some.injEq] at hk
      subst hk
      rw [Nat.zero_mul, List.drop_zero, List.flatten_cons, List.take_append_of_le_length (by omega),
        List.take_of_length_le (by omega)]
    | k + 1 =>
      rw [List.getElem?_cons_succ] at hk
      rw [List.flatten_cons, show (k + 1) * d = y.length + k * d by rw [hy]; ring, List.drop_append]
      rw [List.drop_eq_nil_of_le (by omega), List.nil_append]
      rw [show y.length + k * d - y.length = k * d by omega]
      exact h2 k x hk

/-- Features of dimension `d` become as many of dimension `(2 c + 1) d`, and the middle part of every frame is the frame
itself, so nothing is lost. -/
theorem C142_center {α : Type} (data : List (List α)) (hd : data ≠ []) (c d : ℕ) (hw : ∀ x ∈ data, x.length = d) :
    ∃ out, stackFeatures data c = .ok out ∧ out.length = data.length ∧ (∀ x ∈ out, x.length = (2 * c + 1) * d) ∧
      out.map (fun x => (x.drop (c * d)).take d) = data := by
  refine ⟨_, C142_stack data hd c, by simp, ?_, ?_⟩
  · intro x hx
    obtain ⟨i, hi, rfl⟩ := List.mem_map.1 hx
    rw [(flatten_block d _ ?_).1]
    · simp
    · intro y hy
      obtain ⟨k, hk, rfl⟩ := List.mem_map.1 hy
      have hpos : 0 < data.length := List.length_pos_iff.2 hd
      unfold frameAt
      rw [List.getD_eq_getElem?_getD, List.getElem?_eq_getElem (by omega)]
      exact hw _ (List.getElem_mem _)
  · rw [List.map_map]
    apply List.ext_getElem
    · simp
    · intro i h1 h2
      rw [List.getElem_map, List.getElem_range, Function.comp]
      have hpos : 0 < data.length := List.length_pos_iff.2 hd
      apply (flatten_block d _ ?_).2 c
      · rw [List.getElem?_map, List.getElem?_range (by omega)]
        simp only [Option.map_some, Option.some.injEq]
        unfold frameAt
        rw [List.getD_eq_getElem?_getD, show min (i + c - c) (data.length - 1) = i by omega,
          List.getElem?_eq_getElem h2]
        rfl
      · intro y hy
        obtain ⟨k, hk, rfl⟩ := List.mem_map.1 hy
        unfold frameAt
        rw [List.getD_eq_getElem?_getD, List.getElem?_eq_getElem (by omega)]
        exact hw _ (List.getElem_mem _)

example : ∀ x ∈ [[1, 10], [2, 20], [3, 30]], x.length = 2 := by decide

/-- Utterances without frames are refused, unless nothing is stacked; so is a negative context. -/
theorem C142_errors {α : Type} (data : List (List α)) (c : ℤ) :
    (c ≠ 0 → stackFeatures ([] : List (List α)) c = .error .indexError) ∧
    (c < 0 → data ≠ [] → stackFeatures data c = .error .valueError) := by
  constructor
  · intro hc
    unfold stackFeatures
    rw [if_neg hc]
    rfl
  · intro hc hd
    match data, hd with
    | x :: xs, _ =>
      unfold stackFeatures
      rw [if_neg (by omega), List.getLast?_eq_some_getLast (by simp)]
      simp only [List.head?_cons]
      rw [if_pos hc]

example : stackFeatures [[1]] (-1) = .error .valueError := by decide +kernel

/-! ## C143: numbers for phones, states and speakers -/

/-- Reading a list of phones, where a later line for the same phone counts. -/
def idOf (toInt : String → Option ℤ) (lines : List (List String)) (p : String) : Option ℤ :=
  lines.reverse.findSome? fun l => match l with
    | a :: b :: _ => if a = p then toInt b else none
    | _ => none

theorem readPhones_spec (toInt : String → Option ℤ) : ∀ (lines : List (List String)) (d : List (String × ℤ)),
    (∀ l ∈ lines, ∃ a b t i, l = a :: b :: t ∧ toInt b = some i) →
    ∃ d', readPhones toInt lines d = .ok d' ∧ ∀ p, optGet d' p = (idOf toInt lines p).or (optGet d p)
  | [], d, _ => ⟨d, rfl, fun _ => rfl⟩
  | l :: lines, d, h => by
    obtain ⟨a, b, t, i, rfl, hi⟩ := h l (by simp)
    obtain ⟨d', h1, h2⟩ := readPhones_spec toInt lines (dictSet d a i) fun l' hl' => h l' (by simp [hl'])
    refine ⟨d', by simp only [readPhones, hi, h1], fun p => ?_⟩
    rw [h2, optGet_set]
    unfold idOf
    rw [List.reverse_cons, List.findSome?_append, Option.or_assoc]
    congr 1
    by_cases hp : p = a
    · simp [List.findSome?, hp, hi]
    · simp [List.findSome?, hp, Ne.symm hp]

/-- The lines of a transcription have different utterances. -/
def DistinctUtts (trans : List (String × List String)) : Prop := (trans.map Prod.fst).Nodup

theorem transInt_spec (d : List (String × ℤ)) : ∀ (tr : List (String × List String)) (out : List (String × List ℤ)),
    (∀ u ∈ tr, ∀ p ∈ u.2, (optGet d p).isSome) → (out.map Prod.fst ++ tr.map Prod.fst).Nodup →
    ∃ ids, transInt d (tr.map fun u => u.1 :: u.2) out = .ok (out ++ ids) ∧
      List.Forall₂ (fun u v => v.1 = u.1 ∧ List.Forall₂ (fun p i => optGet d p = some i) u.2 v.2) tr ids
  | [], out, _, _ => ⟨[], by simp [transInt], .nil⟩
  | (u, toks) :: tr, out, h, hn => by
    obtain ⟨is, h1, h2⟩ := listComp_forall (f := dictGet d) (l := toks) fun p hp => by
      obtain ⟨v, hv⟩ := Option.isSome_iff_exists.1 (h (u, toks) (by simp) p hp)
      exact ⟨v, (optGet_some _ _ _).1 hv⟩
    have hu : u ∉ out.map Prod.fst := by
      intro hu
      rw [List.nodup_append] at hn
      exact hn.2.2 u hu u (by simp) rfl
    obtain ⟨ids, h3, h4⟩ := transInt_spec d tr (out ++ [(u, is)]) (fun v hv => h v (by simp [hv])) (by
      rw [List.map_append, List.append_assoc]
      simpa using hn)
    refine ⟨(u, is) :: ids, ?_, .cons ⟨rfl, h2.imp fun p i hp => (optGet_some _ _ _).2 hp⟩ h4⟩
    simp only [List.map_cons, transInt, h1, dictSet_new out u is hu, h3, List.append_assoc, List.singleton_append]

/-- A transcription becomes the numbers of its phones, utterance by utterance. -/
theorem C143_trans (toInt : String → Option ℤ) (lines : List (List String))
    (hl : ∀ l ∈ lines, ∃ a b t i, l = a :: b :: t ∧ toInt b = some i) (tr : List (String × List String))
    (hn : DistinctUtts tr) (hp : ∀ u ∈ tr, ∀ p ∈ u.2, (idOf toInt lines p).isSome) :
    ∃ d ids, readPhones toInt lines [] = .ok d ∧ transInt d (tr.map fun u => u.1 :: u.2) [] = .ok ids ∧
      List.Forall₂ (fun u v => v.1 = u.1 ∧ List.Forall₂ (fun p i => idOf toInt lines p = some i) u.2 v.2) tr ids := by
  obtain ⟨d, h1, h2⟩ := readPhones_spec toInt lines [] hl
  have hd : ∀ p, optGet d p = idOf toInt lines p := fun p => by rw [h2]; simp [optGet, dictGet, Except.toOption]
  obtain ⟨ids, h3, h4⟩ := transInt_spec d tr [] (fun u hu p hpu => by rw [hd]; exact hp u hu p hpu)
    (by simpa [DistinctUtts] using hn)
  simp only [List.nil_append] at h3
  refine ⟨d, ids, h1, h3, h4.imp fun u v h => ⟨h.1, h.2.imp fun p i hpi => by rw [← hd]; exact hpi⟩⟩

theorem forall₂_inj {α β : Type} {f : α → Option β} (hf : ∀ a a' b, f a = some b → f a' = some b → a = a') :
    ∀ {l l' : List α} {m : List β}, List.Forall₂ (fun a b => f a = some b) l m →
      List.Forall₂ (fun a b => f a = some b) l' m → l = l'
  | _, _, _, .nil, .nil => rfl
  | _, _, _, .cons h hs, .cons h' hs' => by rw [hf _ _ _ h h', forall₂_inj hf hs hs']

/-- If no two phones have the same number, the numbers tell the transcription. -/
theorem C143_injective (toInt : String → Option ℤ) (lines : List (List String))
    (hi : ∀ p p' i, idOf toInt lines p = some i → idOf toInt lines p' = some i → p = p') (toks toks' : List String)
    (ids : List ℤ) (h : List.Forall₂ (fun p i => idOf toInt lines p = some i) toks ids)
    (h' : List.Forall₂ (fun p i => idOf toInt lines p = some i) toks' ids) : toks = toks' := forall₂_inj hi h h'

/-- Field reader of the examples. -/
def exNum (s : String) : Option ℤ := if s = "0" then some 0 else if s = "1" then some 1 else none

example : (readPhones exNum [["sil", "0"], ["aa", "1"]] []).toOption.map
    (fun d => (transInt d [["u1", "sil", "aa", "sil"], ["u2", "aa"]] []).toOption) =
    some (some [("u1", [0, 1, 0]), ("u2", [1])]) := by decide +kernel

example : ∀ p p' i, idOf exNum [["sil", "0"], ["aa", "1"]] p = some i →
    idOf exNum [["sil", "0"], ["aa", "1"]] p' = some i → p = p' := by
  intro p p' i h h'
  simp only [idOf, List.reverse_cons, List.reverse_nil, List.nil_append, List.cons_append, List.findSome?, exNum] at h h'
  grind

/-- Errors of the conversion: phones that are not in the list, empty lines; lines of the list with one field or without a
number. -/
theorem C143_trans_errors (toInt : String → Option ℤ) (d : List (String × ℤ)) (out : List (String × List ℤ)) (rest) :
    (∀ u toks p, p ∈ toks → optGet d p = none → transInt d ((u :: toks) :: rest) out = .error .keyError) ∧
    transInt d ([] :: rest) out = .error .indexError ∧
    (∀ a, readPhones toInt ([a] :: rest) d = .error .indexError) ∧
    (∀ a b t, toInt b = none → readPhones toInt ((a :: b :: t) :: rest) d = .error .valueError) := by
  refine ⟨?_, rfl, fun _ => rfl, fun a b t h => by simp only [readPhones, h]⟩
  intro u toks p hp hg
  have : Eval.listComp (dictGet d) toks = .error .keyError :=
    Eval.listComp_error _ _ _ (fun x _ e he => dictGet_err d x e he) ⟨p, hp, .keyError, (optGet_none d p).1 hg⟩
  simp only [transInt, this]

example : (transInt [("aa", 1)] [["u", "bb"]] []).toOption.isNone := by decide +kernel

theorem dictGet_map {β : Type} (ids : List ℤ) (g : ℤ → β) (s : ℤ) (hs : s ∈ ids) :
    dictGet (ids.map fun s => (s, g s)) s = .ok (g s) := by
  unfold dictGet
  cases hf : (ids.map fun s => (s, g s)).find? (fun p => p.1 = s) with
  | none =>
    rw [List.find?_eq_none] at hf
    have := hf (s, g s) (List.mem_map.2 ⟨s, hs, rfl⟩)
    simp at this
  | some p =>
    have h1 := List.find?_some hf
    have h2 := List.mem_of_find?_eq_some hf
    obtain ⟨s', _, rfl⟩ := List.mem_map.1 h2
    simp only [decide_eq_true_eq] at h1
    subst h1
    rfl

theorem pySlice_states (P n s : ℕ) (hs : s < P) :
    pySlice (List.range (P * n)) ((s : ℤ) * n) (((s : ℤ) + 1) * n) = (List.range n).map (s * n + ·) := by
  have h1 : s * n + n ≤ P * n := by
    have := Nat.mul_le_mul_right n hs
    have e : s.succ * n = s * n + n := Nat.succ_mul s n
    omega
  unfold pySlice
  simp only [List.length_range]
  rw [if_neg (not_lt.2 (by positivity)), if_neg (not_lt.2 (by positivity))]
  have e1 : ((s : ℤ) * n).toNat = s * n := by
    rw [← Nat.cast_mul, Int.toNat_natCast]
  have e2 : (((s : ℤ) + 1) * n).toNat = s * n + n := by
    have : ((s : ℤ) + 1) * n = ((s * n + n : ℕ) : ℤ) := by push_cast; ring
    rw [this, Int.toNat_natCast]
  rw [e1, e2, show min (s * n) (P * n) = s * n by omega,
    show min (s * n + n) (P * n) = s * n + n by omega]
  apply List.ext_getElem?
  intro k
  rw [List.getElem?_take, show s * n + n - s * n = n by omega, List.getElem?_map]
  by_cases hk : k < n
  · rw [if_pos hk, List.getElem?_drop, List.getElem?_range (by omega), List.getElem?_range hk]
    rfl
  · rw [if_neg hk, List.getElem?_eq_none (l := List.range n) (by simpa using hk)]
    rfl

/-- With the phones numbered `0, …, P - 1` in any order, an utterance becomes the states `s n, …, s n + n - 1` of each of
its phones `s` in turn. -/
theorem C143_states (ids : List ℤ) (hids : ∀ s, s ∈ ids ↔ 0 ≤ s ∧ s < ids.length) (n : ℕ) (utt : List ℕ)
    (hu : ∀ s ∈ utt, s < ids.length) :
    stateLabels ids n (utt.map Nat.cast) = .ok (utt.flatMap fun s => (List.range n).map (s * n + ·)) := by
  have hcomp : Eval.listComp (dictGet (statePhone ids n)) (utt.map Nat.cast) =
      .ok (utt.map fun s => (List.range n).map (s * n + ·)) := by
    have h1 := Eval.listComp_ok (dictGet (statePhone ids n))
      (fun z : ℤ => (List.range n).map (z.toNat * n + ·)) (utt.map Nat.cast) (by
        intro z hz
        obtain ⟨s, hs, rfl⟩ := List.mem_map.1 hz
        have hs' := hu s hs
        unfold statePhone
        rw [dictGet_map ids (fun s => pySlice (List.range (ids.length * n)) (s * n) ((s + 1) * n)) s
          ((hids s).2 ⟨by omega, by omega⟩), pySlice_states ids.length n s hs', Int.toNat_natCast])
    rw [h1, List.map_map]
    rfl
  unfold stateLabels
  rw [hcomp]
  simp only
  rw [if_pos]
  · rw [List.flatMap_def]
  · intro x hx
    obtain ⟨s, hs, rfl⟩ := List.mem_map.1 hx
    match utt, hs with
    | t :: _, _ => simp

example : ∀ s, s ∈ [(1 : ℤ), 0] ↔ 0 ≤ s ∧ s < ([(1 : ℤ), 0].length : ℤ) := by
  intro s
  simp only [List.mem_cons, List.not_mem_nil, or_false, List.length_cons, List.length_nil]
  omega

example : stateLabels [1, 0] 3 [0, 1, 0] = .ok [0, 1, 2, 3, 4, 5, 0, 1, 2] := by decide +kernel

theorem flatMap_states (n : ℕ) : ∀ (utt : List ℕ),
    (utt.flatMap fun s => (List.range n).map (s * n + ·)).length = utt.length * n ∧
    ∀ i, i < utt.length * n → (utt.flatMap fun s => (List.range n).map (s * n + ·))[i]? =
      some (utt.getD (i / n) 0 * n + i % n)
  | [] => by simp
  | s :: utt => by
    obtain ⟨h1, h2⟩ := flatMap_states n utt
    rw [List.flatMap_cons]
    refine ⟨by rw [List.length_append, h1]; simp [Nat.add_mul, Nat.add_comm], ?_⟩
    intro i hi
    have hn : 0 < n := by
      rcases Nat.eq_zero_or_pos n with h | h
      · simp [h] at hi
      · exact h
    by_cases hin : i < n
    · rw [List.getElem?_append_left (by simpa using hin), List.getElem?_map, List.getElem?_range hin,
        Nat.div_eq_of_lt hin, Nat.mod_eq_of_lt hin]
      rfl
    · rw [List.getElem?_append_right (by simpa using hin), List.length_map, List.length_range]
      have hi' : i - n < utt.length * n := by
        rw [List.length_cons, Nat.succ_mul] at hi
        omega
      rw [h2 (i - n) hi']
      have e1 : i / n = (i - n) / n + 1 := by
        conv_lhs => rw [show i = i - n + n by omega]
        exact Nat.add_div_right _ hn
      have e2 : i % n = (i - n) % n := by
        conv_lhs => rw [show i = i - n + n by omega]
        exact Nat.add_mod_right _ _
      rw [e1, e2, List.getD_cons_succ]

/-- The labels tell the phones: there are `n` per phone, and each divided by `n` is its phone. -/
theorem C143_states_recover (ids : List ℤ) (hids : ∀ s, s ∈ ids ↔ 0 ≤ s ∧ s < ids.length) (n : ℕ) (utt : List ℕ)
    (hu : ∀ s ∈ utt, s < ids.length) :
    ∃ out, stateLabels ids n (utt.map Nat.cast) = .ok out ∧ out.length = utt.length * n ∧
      ∀ i x, out[i]? = some x → utt[i / n]? = some (x / n) ∧ x % n = i % n := by
  refine ⟨_, C143_states ids hids n utt hu, (flatMap_states n utt).1, ?_⟩
  intro i x hx
  have hi : i < utt.length * n := by
    rw [← (flatMap_states n utt).1]
    exact (List.getElem?_eq_some_iff.1 hx).1
  rw [(flatMap_states n utt).2 i hi, Option.some.injEq] at hx
  have hn : 0 < n := by
    rcases Nat.eq_zero_or_pos n with h | h
    · simp [h] at hi
    · exact h
  have hdiv : i / n < utt.length := (Nat.div_lt_iff_lt_mul hn).2 hi
  subst hx
  have hmod := Nat.mod_lt i hn
  refine ⟨?_, ?_⟩
  · rw [List.getD_eq_getElem?_getD, List.getElem?_eq_getElem hdiv, Option.getD_some]
    congr 1
    rw [Nat.mul_comm, Nat.mul_add_div hn, Nat.div_eq_of_lt hmod, Nat.add_zero]
  · rw [Nat.mul_comm, Nat.mul_add_mod, Nat.mod_eq_of_lt hmod]

/-- The violation: with phones numbered from 1, as other scripts do, the last phone has no states; utterances with it are
refused, or lose it without notice. -/
theorem C143_states_fails :
    stateLabels [1, 2] 2 [1, 1] = .ok [2, 3, 2, 3] ∧ stateLabels [1, 2] 2 [2] = .ok [] ∧
    stateLabels [1, 2] 2 [1, 2] = .error .valueError := by decide +kernel

/-- Numbers that are not in the list of phones raise `KeyError`. -/
theorem C143_states_unknown (ids : List ℤ) (n : ℕ) (utt : List ℤ) (s : ℤ) (hs : s ∈ utt) (hi : s ∉ ids) :
    stateLabels ids n utt = .error .keyError := by
  unfold stateLabels
  rw [Eval.listComp_error (dictGet (statePhone ids n)) .keyError utt (fun x _ e he => dictGet_err _ x e he)
    ⟨s, hs, .keyError, dictGet_error _ _ (by unfold statePhone; simpa [Function.comp_def] using hi)⟩]

example : stateLabels [0, 1] 2 [0, 5] = .error .keyError := by decide +kernel

theorem readSpeakers_spec : ∀ (r : List (String × String)), readSpeakers (r.map fun p => [p.1, p.2]) = .ok r
  | [] => rfl
  | p :: r => by simp only [List.map_cons, readSpeakers, readSpeakers_spec r]

theorem spk_fold (order : List String) : ∀ (r : List (String × String)) (d : List (String × ℕ)),
    ∀ u, optGet (r.foldl (fun d p => dictSet d p.1 (order.idxOf p.2)) d) u =
      ((r.reverse.find? fun p => p.1 = u).map fun p => order.idxOf p.2).or (optGet d u)
  | [], d, u => by simp
  | p :: r, d, u => by
    rw [List.foldl_cons, spk_fold order r, optGet_set, List.reverse_cons, List.find?_append]
    by_cases hp : p.1 = u
    · cases r.reverse.find? fun p => p.1 = u <;> simp [hp]
    · cases r.reverse.find? fun p => p.1 = u <;> simp [hp, Ne.symm hp]

/-- Whatever order Python lists the speakers in, every utterance gets a label that the printed list gives to its speaker,
and to no other one. -/
theorem C143_speakers (r : List (String × String)) (order : List String) (hn : order.Nodup)
    (ho : ∀ s, s ∈ order ↔ s ∈ r.map Prod.snd) (hu : (r.map Prod.fst).Nodup) :
    ∃ data printed, spkLabels order (r.map fun p => [p.1, p.2]) = .ok (data, printed) ∧
      (∀ u s, (u, s) ∈ r → ∃ i, dictGet data u = .ok i ∧ (s, i) ∈ printed ∧ ∀ s', (s', i) ∈ printed → s' = s) ∧
      printed.map Prod.snd = List.range order.length := by
  refine ⟨_, _, by unfold spkLabels; rw [readSpeakers_spec], ?_, ?_⟩
  · intro u s hs
    have hso : s ∈ order := (ho s).2 (List.mem_map.2 ⟨(u, s), hs, rfl⟩)
    refine ⟨order.idxOf s, ?_, ?_, ?_⟩
    · rw [← optGet_some, spk_fold]
      have : r.reverse.find? (fun p => p.1 = u) = some (u, s) := by
        cases hf : r.reverse.find? (fun p => p.1 = u) with
        | none =>
          rw [List.find?_eq_none] at hf
          have := hf (u, s) (List.mem_reverse.2 hs)
          simp at this
        | some p =>
          have h1 := List.find?_some hf
          have h2 := List.mem_reverse.1 (List.mem_of_find?_eq_some hf)
          simp only [decide_eq_true_eq] at h1
          congr 1
          exact List.inj_on_of_nodup_map hu h2 hs h1
      rw [this]
      rfl
    · rw [List.mk_mem_zipIdx_iff_getElem?]
      rw [List.getElem?_eq_getElem (List.idxOf_lt_length_iff.2 hso)]
      simp
    · intro s' h
      rw [List.mk_mem_zipIdx_iff_getElem?, List.getElem?_eq_getElem (List.idxOf_lt_length_iff.2 hso)] at h
      simpa using h.symm
  · rw [List.zipIdx_map_snd, List.range_eq_range']

example : spkLabels ["s2", "s1"] [["u1", "s1"], ["u2", "s2"], ["u3", "s1"]] =
    .ok ([("u1", 1), ("u2", 0), ("u3", 1)], [("s2", 0), ("s1", 1)]) := by decide +kernel

/-- The violation: two runs on the same file, or on the files of two sets with the same speakers, may number the speakers
differently, since the order of a set is not fixed. -/
theorem C143_speakers_fails : ∃ (r : List (String × String)) (o o' : List String) (d d' : List (String × ℕ)) (p p' : List (String × ℕ)),
    o.Nodup ∧ o'.Nodup ∧ (∀ s, s ∈ o ↔ s ∈ r.map Prod.snd) ∧ (∀ s, s ∈ o' ↔ s ∈ r.map Prod.snd) ∧
    spkLabels o (r.map fun p => [p.1, p.2]) = .ok (d, p) ∧ spkLabels o' (r.map fun p => [p.1, p.2]) = .ok (d', p') ∧
    dictGet d "u1" = .ok 0 ∧ dictGet d' "u1" = .ok 1 := by
  refine ⟨[("u1", "s1"), ("u2", "s2")], ["s1", "s2"], ["s2", "s1"], [("u1", 0), ("u2", 1)], [("u1", 1), ("u2", 0)],
    [("s1", 0), ("s2", 1)], [("s2", 0), ("s1", 1)], by decide, by decide, ?_, ?_, by decide +kernel, by decide +kernel,
    by decide +kernel, by decide +kernel⟩
  · intro s; simp
  · intro s; simp [or_comm]

/-- Lines that do not have two fields are refused. -/
theorem C143_speakers_errors (order : List String) (r : List (String × String)) (l : List String) (hl : l.length ≠ 2)
    (rest : List (List String)) :
    spkLabels order (r.map (fun p => [p.1, p.2]) ++ l :: rest) = .error .valueError := by
  have : readSpeakers (r.map (fun p => [p.1, p.2]) ++ l :: rest) = .error .valueError := by
    induction r with
    | nil =>
      match l, hl with
      | [], _ => rfl
      | [_], _ => rfl
      | [_, _], h => exact absurd rfl h
      | _ :: _ :: _ :: _, _ => rfl
    | cons p r ih => simp only [List.map_cons, List.cons_append, readSpeakers, ih]
  unfold spkLabels
  rw [this]

example : spkLabels ["s1"] [["u1", "s1"], ["u2"]] = .error .valueError := by decide +kernel

end Verif.Props
