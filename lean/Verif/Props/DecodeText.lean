import Verif.Model.DecodeText
import Verif.Props.GraphEdit
import Mathlib.Tactic.Linarith
import Mathlib.Tactic.NormNum

/-!
# C144: decoding graphs as text
-/

namespace Verif.Props

open Verif DecodeText

/-! ## The sequences of phones -/

/-- The names of the states after `a` on a way to the end of the graph. -/
inductive TextPath {F : Type} (lines : List (TextArc F)) : String → List String → Prop
  | stop : TextPath lines "[/s]" []
  | step {a b w ns} : (a, b, w) ∈ lines → TextPath lines b ns → TextPath lines a (b :: ns)

/-- The sequences of phones that the text accepts. -/
def Accepts {F : Type} (lines : List (TextArc F)) (phones seq : List String) : Prop :=
  ∃ ns, TextPath lines "[s]" ns ∧ ns.filter (fun n => n ∈ phones) = seq

/-- Names that the scripts keep for themselves. -/
def Proper (phones : List String) : Prop := "[s]" ∉ phones ∧ "[/s]" ∉ phones ∧ "_1" ∉ phones

theorem loopLines_spec {F : Type} (weights : List F) : ∀ (phones : List String) (i : ℕ),
    i + phones.length ≤ weights.length → ∃ r, loopLines weights phones i = .ok r ∧
      ∀ a b w, (a, b, w) ∈ r ↔ (b = "_1" ∧ a ∈ phones ∧ w = none) ∨
        (a = "_1" ∧ ∃ k, phones[k]? = some b ∧ w = weights[i + k]?)
  | [], i, _ => ⟨[], rfl, by simp⟩
  | p :: phones, i, h => by
    rw [List.length_cons] at h
    obtain ⟨r, h1, h2⟩ := loopLines_spec weights phones (i + 1) (by omega)
    have hw : weights[i]? = some weights[i] := List.getElem?_eq_getElem (by omega)
    refine ⟨("_1", p, some weights[i]) :: (p, "_1", none) :: r, by simp only [loopLines, hw, h1], ?_⟩
    intro a b w
    rw [List.mem_cons, List.mem_cons, h2]
    simp only [Prod.mk.injEq, List.mem_cons]
    constructor
    · rintro (⟨rfl, rfl, rfl⟩ | ⟨rfl, rfl, rfl⟩ | ⟨rfl, h, rfl⟩ | ⟨rfl, k, hk, rfl⟩)
      · exact .inr ⟨rfl, 0, by simp, by simp [hw]⟩
      · exact .inl ⟨rfl, .inl rfl, rfl⟩
      · exact .inl ⟨rfl, .inr h, rfl⟩
      · exact .inr ⟨rfl, k + 1, by simpa using hk, by congr 1; omega⟩
    · rintro (⟨rfl, rfl | h, rfl⟩ | ⟨rfl, k, hk, rfl⟩)
      · exact .inr (.inl ⟨rfl, rfl, rfl⟩)
      · exact .inr (.inr (.inl ⟨rfl, h, rfl⟩))
      · match k, hk with
        | 0, hk =>
          simp only [List.getElem?_cons_zero, Option.some.injEq] at hk
          exact .inl ⟨rfl, hk.symm, by simp [hw]⟩
        | k + 1, hk =>
          exact .inr (.inr (.inr ⟨rfl, k, by simpa using hk, by congr 1; omega⟩))

theorem path_loop {F : Type} (lines : List (TextArc F)) (phones : List String)
    (h1 : ∀ p ∈ phones, ∃ w, ("_1", p, w) ∈ lines) (h2 : ∀ p ∈ phones, ∃ w, (p, "_1", w) ∈ lines)
    (all : List String) (ha : ∀ p ∈ phones, p ∈ all) (hj : "_1" ∉ all) :
    ∀ (seq : List String), (∀ p ∈ seq, p ∈ phones) → ∀ ns, TextPath lines "_1" ns →
      ∃ ns', TextPath lines "_1" ns' ∧ ns'.filter (fun n => n ∈ all) = seq ++ ns.filter (fun n => n ∈ all)
  | [], _, ns, hn => ⟨ns, hn, rfl⟩
  | p :: seq, hs, ns, hn => by
    obtain ⟨ns', h3, h4⟩ := path_loop lines phones h1 h2 all ha hj seq (fun q hq => hs q (by simp [hq])) ns hn
    have hp := hs p (by simp)
    obtain ⟨w, hw⟩ := h1 p hp
    obtain ⟨w', hw'⟩ := h2 p hp
    refine ⟨p :: "_1" :: ns', .step hw (.step hw' h3), ?_⟩
    rw [List.filter_cons_of_pos (by simpa using ha p hp), List.filter_cons_of_neg (by simpa using hj), h4]
    rfl

/-- Without silence the text accepts all the sequences of phones, the empty one too. -/
theorem C144_language {F : Type} (phones : List String) (hp : Proper phones) (weights : List F)
    (hw : phones.length ≤ weights.length) :
    ∃ lines, createLines false phones weights = .ok lines ∧
      ∀ seq, Accepts lines phones seq ↔ ∀ p ∈ seq, p ∈ phones := by
  obtain ⟨r, h1, h2⟩ := loopLines_spec weights phones 0 (by omega)
  refine ⟨("[s]", "_1", none) :: ("_1", "[/s]", none) :: r, by simp [createLines, h1], ?_⟩
  intro seq
  constructor
  · rintro ⟨ns, _, rfl⟩ p hp'
    simpa using (List.mem_filter.1 hp').2
  · intro hseq
    obtain ⟨ns, h3, h4⟩ := path_loop (("[s]", "_1", none) :: ("_1", "[/s]", none) :: r) phones
      (fun p hp' => by
        obtain ⟨k, hk, rfl⟩ := List.getElem_of_mem hp'
        exact ⟨weights[0 + k]?, by simp only [List.mem_cons, h2]; exact .inr (.inr (.inr ⟨trivial, k, by simp [hk], rfl⟩))⟩)
      (fun p hp' => ⟨none, by simp only [List.mem_cons, h2]; exact .inr (.inr (.inl ⟨trivial, hp', trivial⟩))⟩)
      phones (fun _ h => h) hp.2.2 seq hseq ["[/s]"] (.step (w := none) (by simp) .stop)
    refine ⟨"_1" :: ns, .step (w := none) (by simp) h3, ?_⟩
    rw [List.filter_cons_of_neg (by simpa using hp.2.2), h4, List.filter_cons_of_neg (by simpa using hp.2.1)]
    simp

example : Proper ["sil", "aa"] := by unfold Proper; decide +kernel

/-- With silence the sequences begin and end with the first phone of the list; in between everything is possible, and
one silence alone too. -/
theorem C144_language_silence {F : Type} (sil : String) (rest : List String) (hp : Proper (sil :: rest))
    (hn : sil ∉ rest) (weights : List F) (hw : rest.length + 1 ≤ weights.length) :
    ∃ lines, createLines true (sil :: rest) weights = .ok lines ∧
      ∀ seq, Accepts lines (sil :: rest) seq ↔ (∀ p ∈ seq, p ∈ sil :: rest) ∧ seq.head? = some sil ∧
        seq.getLast? = some sil := by
  obtain ⟨r, h1, h2⟩ := loopLines_spec weights rest 1 (by omega)
  obtain ⟨w0, ws, rfl⟩ : ∃ w0 ws, weights = w0 :: ws := by
    cases weights with
    | nil => simp at hw
    | cons w0 ws => exact ⟨w0, ws, rfl⟩
  refine ⟨("[s]", sil, none) :: (sil, "[/s]", none) :: (sil, "_1", none) :: ("_1", sil, some w0) :: r,
    by simp [createLines, h1], ?_⟩
  set lines : List (TextArc F) :=
    ("[s]", sil, none) :: (sil, "[/s]", none) :: (sil, "_1", none) :: ("_1", sil, some w0) :: r with hlines
  obtain ⟨hp1, hp2, hp3⟩ := hp
  have s1 : sil ≠ "[s]" := fun h => hp1 (by simp [h])
  have s2 : sil ≠ "[/s]" := fun h => hp2 (by simp [h])
  have s3 : sil ≠ "_1" := fun h => hp3 (by simp [h])
  have arcs_end : ∀ a w, (a, "[/s]", w) ∈ lines → a = sil := by
    intro a w hm
    rw [hlines] at hm
    simp only [List.mem_cons, Prod.mk.injEq] at hm
    rcases hm with h | h | h | h | h
    · exact absurd h.2.1.symm s2
    · exact h.1
    · exact absurd h.2.1 (by decide)
    · exact absurd h.2.1.symm s2
    · rw [h2] at h
      rcases h with ⟨h, _⟩ | ⟨_, k, hk, _⟩
      · exact absurd h (by decide)
      · exact absurd (List.mem_cons.2 (.inr (List.mem_of_getElem? hk))) hp2
  have end_arcs : ∀ b w, ("[/s]", b, w) ∉ lines := by
    intro b w hm
    rw [hlines] at hm
    simp only [List.mem_cons, Prod.mk.injEq] at hm
    rcases hm with h | h | h | h | h
    · exact absurd h.1 (by decide)
    · exact s2 h.1.symm
    · exact s2 h.1.symm
    · exact absurd h.1 (by decide)
    · rw [h2] at h
      rcases h with ⟨_, h, _⟩ | ⟨h, _⟩
      · exact hp2 (by simp [h])
      · exact absurd h (by decide)
  have start_arcs : ∀ b w, ("[s]", b, w) ∈ lines → b = sil := by
    intro b w hm
    rw [hlines] at hm
    simp only [List.mem_cons, Prod.mk.injEq] at hm
    rcases hm with h | h | h | h | h
    · exact h.2.1
    · exact absurd h.1.symm s1
    · exact absurd h.1.symm s1
    · exact absurd h.1 (by decide)
    · rw [h2] at h
      rcases h with ⟨_, h, _⟩ | ⟨h, _⟩
      · exact absurd (List.mem_cons.2 (.inr h)) hp1
      · exact absurd h (by decide)
  have hlast : ∀ a ns, TextPath lines a ns → a = "[/s]" ∨
      ((a :: ns).filter (fun n => n ∈ sil :: rest)).getLast? = some sil := by
    intro a ns h
    induction h with
    | stop => exact .inl rfl
    | @step a b w ns hm hpath ih =>
      refine .inr ?_
      rcases ih with rfl | ih
      · have ha := arcs_end a w hm
        cases hpath with
        | stop =>
          rw [ha, List.filter_cons_of_pos (by simp), List.filter_cons_of_neg (by simpa using hp2)]
          rfl
        | step h' _ => exact absurd h' (end_arcs _ _)
      · rw [List.filter_cons]
        split
        · rw [List.getLast?_cons, ih]; rfl
        · exact ih
  intro seq
  constructor
  · rintro ⟨ns, hpath, rfl⟩
    refine ⟨fun p hp' => by simpa using (List.mem_filter.1 hp').2, ?_, ?_⟩
    · generalize ha : "[s]" = a at hpath
      cases hpath with
      | stop => exact absurd ha (by decide)
      | step hm _ =>
        subst ha
        rw [start_arcs _ _ hm, List.filter_cons_of_pos (by simp)]
        rfl
    · rcases hlast _ _ hpath with h | h
      · exact absurd h (by decide)
      · rw [List.filter_cons_of_neg (by simpa using hp1)] at h
        exact h
  · rintro ⟨hall, hhead, hlst⟩
    match seq, hhead with
    | x :: tl, hhead =>
      simp only [List.head?_cons, Option.some.injEq] at hhead
      subst hhead
      have hend : TextPath lines x ["[/s]"] := .step (w := none) (by rw [hlines]; simp) .stop
      have hfe : ["[/s]"].filter (fun n => n ∈ x :: rest) = [] := by
        rw [List.filter_cons_of_neg (by simpa using hp2)]; rfl
      rcases List.eq_nil_or_concat tl with rfl | ⟨mid, y, rfl⟩
      · refine ⟨[x, "[/s]"], .step (w := none) (by rw [hlines]; simp) hend, ?_⟩
        rw [List.filter_cons_of_pos (by simp), hfe]
      · have hy : y = x := by
          rw [List.concat_eq_append, ← List.cons_append, List.getLast?_append] at hlst
          simpa using hlst
        subst hy
        have hj : TextPath lines "_1" (y :: ["[/s]"]) := .step (w := some w0) (by rw [hlines]; simp) hend
        obtain ⟨ns, h3, h4⟩ := path_loop lines (y :: rest)
          (fun p hp' => by
            rcases List.mem_cons.1 hp' with rfl | hp'
            · exact ⟨some w0, by rw [hlines]; simp⟩
            · obtain ⟨k, hk, rfl⟩ := List.getElem_of_mem hp'
              refine ⟨(w0 :: ws)[1 + k]?, ?_⟩
              rw [hlines]
              simp only [List.mem_cons, h2]
              exact .inr (.inr (.inr (.inr (.inr ⟨trivial, k, by simp [hk], rfl⟩)))))
          (fun p hp' => by
            refine ⟨none, ?_⟩
            rcases List.mem_cons.1 hp' with rfl | hp'
            · rw [hlines]; simp
            · rw [hlines]
              simp only [List.mem_cons, h2]
              exact .inr (.inr (.inr (.inr (.inl ⟨trivial, hp', trivial⟩)))))
          (y :: rest) (fun _ h => h) hp3 mid (fun p hp' => hall p (by simp [hp'])) _ hj
        refine ⟨y :: "_1" :: ns, .step (w := none) (by rw [hlines]; simp)
          (.step (w := none) (by rw [hlines]; simp) h3), ?_⟩
        rw [List.filter_cons_of_pos (by simp), List.filter_cons_of_neg (by simpa using hp3), h4,
          List.filter_cons_of_pos (by simp), hfe, List.concat_eq_append]

example : (createLines true ["sil", "aa"] [(1 : ℚ), 1]).toOption.isSome := by decide +kernel

/-- The scripts fail when the list of phones is empty and silence is asked for, or when the language model has less
weights than there are phones. -/
theorem C144_errors {F : Type} :
    (∀ weights : List F, createLines true [] weights = .error .indexError) ∧
    (∀ (useSil : Bool) (phones : List String) (weights : List F), weights.length < phones.length →
      createLines useSil phones weights = .error .indexError) := by
  have key : ∀ (weights : List F) (phones : List String) (i : ℕ), i ≤ weights.length →
      weights.length < i + phones.length → loopLines weights phones i = .error .indexError := by
    intro weights phones
    induction phones with
    | nil => intro i h1 h2; simp at h2; omega
    | cons p phones ih =>
      intro i h1 h2
      rw [List.length_cons] at h2
      by_cases hi : i < weights.length
      · simp only [loopLines, List.getElem?_eq_getElem hi, ih (i + 1) (by omega) (by omega)]
      · simp only [loopLines, List.getElem?_eq_none (Nat.le_of_not_lt hi)]
  refine ⟨fun weights => by simp [createLines], ?_⟩
  intro useSil phones weights h
  cases useSil with
  | false => simp [createLines, key weights phones 0 (by omega) (by omega)]
  | true =>
    match phones, weights, h with
    | p :: ps, [], _ => simp [createLines]
    | p :: ps, w :: ws, h =>
      simp only [List.length_cons] at h
      simp [createLines, key (w :: ws) ps 1 (by simp) (by simp; omega)]

example : createLines false ["a", "b"] [(1 : ℚ)] = .error .indexError := by decide +kernel

/-! ## The graph -/

/-- The sum of the weights of the lines that leave a state. -/
def textSum {F : Type} [Field F] (lines : List (TextArc F)) (s : String) : F :=
  ((lines.filter fun l => l.1 = s).map fun l => l.2.2.getD 1).sum

theorem addStates_spec {F : Type} : ∀ (ns : List String) (g : Graph F),
    (ns.foldl (fun g _ => (g.addState none).1) g) =
      { g with count := g.count + ns.length,
               states := g.states ++ (List.range ns.length).map fun i => (g.count + i, none) }
  | [], g => by simp
  | n :: ns, g => by
    rw [List.foldl_cons, addStates_spec ns]
    simp only [Graph.addState, List.length_cons, List.append_assoc, List.range_succ_eq_map, List.map_cons, List.map_map]
    congr 1
    · omega
    · congr 1
      simp only [List.cons_append, List.nil_append, Nat.add_zero, List.cons.injEq, true_and]
      apply List.map_congr_left
      intro i _
      simp only [Function.comp, Prod.mk.injEq, and_true]
      omega

theorem foldl_addArc_new {F A : Type} (f : A → Arc F) : ∀ (as : List A) (g : Graph F),
    (g.arcs.map (fun a => (a.start, a.stop)) ++ as.map (fun a => ((f a).start, (f a).stop))).Nodup →
    as.foldl (fun g a => g.addArc (f a).start (f a).stop (f a).weight) g = { g with arcs := g.arcs ++ as.map f }
  | [], g, _ => by simp
  | a :: as, g, h => by
    have hnew : g.addArc (f a).start (f a).stop (f a).weight = { g with arcs := g.arcs ++ [f a] } := by
      unfold Graph.addArc
      rw [if_neg]
      rw [Bool.not_eq_true, List.any_eq_false]
      intro b hb hk
      simp only [Arc.sameKey, Bool.and_eq_true, beq_iff_eq] at hk
      rw [List.nodup_append] at h
      exact h.2.2 (b.start, b.stop) (List.mem_map.2 ⟨b, hb, rfl⟩) ((f a).start, (f a).stop) (by simp)
        (by rw [hk.1, hk.2])
    rw [List.foldl_cons, hnew, foldl_addArc_new f as]
    · simp
    · simpa using h

theorem names_mem {F : Type} (lines : List (TextArc F)) (n : String) :
    n ∈ names lines ↔ ∃ l ∈ lines, n = l.1 ∨ n = l.2.1 := by
  unfold names
  rw [List.mem_insertionSort, List.mem_dedup, List.mem_flatMap]
  simp

theorem names_nodup {F : Type} (lines : List (TextArc F)) : (names lines).Nodup :=
  (List.perm_insertionSort (· ≤ ·) _).nodup_iff.2 (List.nodup_dedup _)

/-- The graph has the states of the text under the listed names, the arcs of the text, whatever order Python lists them
in, and the weights of a state divided by their sum, so that they are probabilities. -/
theorem C144_graph {F : Type} [Field F] [DecidableEq F] (lines : List (TextArc F))
    (hd : (lines.map fun l => (l.1, l.2.1)).Nodup) (order : List (String × String × F))
    (ho : order.Perm (lines.map arcOf)) (hs : ∃ l ∈ lines, l.1 = "[s]") (he : ∃ l ∈ lines, l.2.1 = "[/s]")
    (h0 : ∀ l ∈ lines, textSum lines l.1 ≠ 0) :
    ∃ g syms, prepareGraph lines order = .ok (g, syms) ∧
      (∀ i n, (i, n) ∈ syms ↔ (names lines)[i]? = some n) ∧ g.ids = List.range (names lines).length ∧
      (∃ i, g.startState = some i ∧ (i, "[s]") ∈ syms) ∧ (∃ i, g.endState = some i ∧ (i, "[/s]") ∈ syms) ∧
      (g.arcs.map fun a => (a.start, a.stop)).Nodup ∧
      ∀ a, a ∈ g.arcs ↔ ∃ l ∈ lines, (a.start, l.1) ∈ syms ∧ (a.stop, l.2.1) ∈ syms ∧
        a.weight = l.2.2.getD 1 / textSum lines l.1 := by
  set ns := names lines with hns
  have hnn : ns.Nodup := names_nodup lines
  have m1 : ∀ l ∈ lines, l.1 ∈ ns := fun l hl => (names_mem lines l.1).2 ⟨l, hl, .inl rfl⟩
  have m2 : ∀ l ∈ lines, l.2.1 ∈ ns := fun l hl => (names_mem lines l.2.1).2 ⟨l, hl, .inr rfl⟩
  have ms : "[s]" ∈ ns := by obtain ⟨l, hl, h⟩ := hs; exact h ▸ m1 l hl
  have me : "[/s]" ∈ ns := by obtain ⟨l, hl, h⟩ := he; exact h ▸ m2 l hl
  have hsym : ∀ i n, (i, n) ∈ ns.zipIdx.map Prod.swap ↔ ns[i]? = some n := by
    intro i n
    rw [List.mem_map]
    constructor
    · rintro ⟨⟨n', i'⟩, h, he⟩
      simp only [Prod.swap, Prod.mk.injEq] at he
      rw [List.mk_mem_zipIdx_iff_getElem?] at h
      rw [← he.1, ← he.2]; exact h
    · intro h
      exact ⟨(n, i), List.mk_mem_zipIdx_iff_getElem?.2 h, rfl⟩
  have hidx : ∀ n ∈ ns, ns[ns.idxOf n]? = some n := by
    intro n hn
    rw [List.getElem?_eq_getElem (List.idxOf_lt_length_iff.2 hn)]
    simp
  have hidx' : ∀ i n, ns[i]? = some n → i = ns.idxOf n := by
    intro i n h
    obtain ⟨hi, h'⟩ := List.getElem?_eq_some_iff.1 h
    rw [← h', List.Nodup.idxOf_getElem hnn]
  have inj : ∀ n ∈ ns, ∀ n' ∈ ns, ns.idxOf n = ns.idxOf n' → n = n' := by
    intro n hn n' hn' h
    have a1 := hidx n hn
    rw [h, hidx n' hn'] at a1
    exact (Option.some.inj a1).symm
  -- the arcs before the division
  let f : String × String × F → Arc F := fun a => ⟨ns.idxOf a.1, ns.idxOf a.2.1, a.2.2⟩
  let g1 : Graph F := ⟨ns.length, (List.range ns.length).map fun i => (i, none), [], some (ns.idxOf "[s]"),
    some (ns.idxOf "[/s]")⟩
  have hkeys : (order.map fun a => ((f a).start, (f a).stop)).Nodup := by
    have hp : (order.map fun a => (a.1, a.2.1)).Perm (lines.map fun l => (l.1, l.2.1)) := by
      have := ho.map (fun a : String × String × F => (a.1, a.2.1))
      rwa [List.map_map] at this
    have hn1 : (order.map fun a => (a.1, a.2.1)).Nodup := hp.nodup_iff.2 hd
    have : (order.map fun a => ((f a).start, (f a).stop)) =
        (order.map fun a => (a.1, a.2.1)).map fun p => (ns.idxOf p.1, ns.idxOf p.2) := by
      rw [List.map_map]; rfl
    rw [this]
    refine List.Nodup.map_on ?_ hn1
    intro p hp' q hq' h
    have hp1 := hp.mem_iff.1 hp'
    have hq1 := hp.mem_iff.1 hq'
    obtain ⟨l, hl, rfl⟩ := List.mem_map.1 hp1
    obtain ⟨l', hl', rfl⟩ := List.mem_map.1 hq1
    simp only [Prod.mk.injEq] at h
    rw [inj _ (m1 l hl) _ (m1 l' hl') h.1, inj _ (m2 l hl) _ (m2 l' hl') h.2]
  let g2 : Graph F := { g1 with arcs := order.map f }
  have hids : g2.ids = List.range ns.length := by
    show ((List.range ns.length).map fun i => (i, (none : Option ℕ))).map Prod.fst = _
    rw [List.map_map]
    simp [Function.comp_def]
  have hout : ∀ n ∈ ns, outSum g2 (ns.idxOf n) = textSum lines n := by
    intro n hn
    unfold outSum textSum
    have e1 : g2.arcs.filter (fun a => a.start = ns.idxOf n) = (order.filter fun a => a.1 = n).map f := by
      show (order.map f).filter _ = _
      rw [List.filter_map]
      congr 1
      apply List.filter_congr
      intro a ha
      obtain ⟨l, hl, rfl⟩ := List.mem_map.1 (ho.mem_iff.1 ha)
      simp only [Function.comp, f]
      rw [decide_eq_decide]
      exact ⟨fun h => inj _ (m1 l hl) _ hn h, fun h => by rw [h]⟩
    rw [e1, List.map_map]
    have e2 := ((ho.filter fun a => decide (a.1 = n)).map (fun a => a.2.2)).sum_eq
    rw [List.filter_map, List.map_map] at e2
    exact e2
  obtain ⟨n1, n2, n3, n4, n5, n6⟩ := C02_normalize_divides g2 (by rw [hids]; exact List.nodup_range) (by
    intro s _ ⟨a, ha, has⟩
    obtain ⟨b, hb, rfl⟩ := List.mem_map.1 (show a ∈ order.map f from ha)
    obtain ⟨l, hl, rfl⟩ := List.mem_map.1 (ho.mem_iff.1 hb)
    rw [← has]
    show outSum g2 (ns.idxOf l.1) ≠ 0
    rw [hout _ (m1 l hl)]
    exact h0 l hl)
  have hprep : prepareGraph lines order = .ok (g2.normalize.1, ns.zipIdx.map Prod.swap) := by
    unfold prepareGraph
    simp only
    rw [← hns, if_pos ms, if_pos me]
    have hg1 : ({ (ns.foldl (fun g _ => (g.addState none).1) Graph.empty : Graph F) with
        startState := some (ns.idxOf "[s]"), endState := some (ns.idxOf "[/s]") } : Graph F) = g1 := by
      rw [addStates_spec]
      simp [Graph.empty, g1]
    rw [hg1]
    have hg2 : order.foldl (fun g a => g.addArc (ns.idxOf a.1) (ns.idxOf a.2.1) a.2.2) g1 = g2 := by
      have := foldl_addArc_new f order g1 (by simpa [g1] using hkeys)
      rw [show g2 = { g1 with arcs := g1.arcs ++ order.map f } from by simp [g2, g1], ← this]
    rw [hg2]
    cases hn : g2.normalize with
    | mk a b =>
      rw [hn] at n1
      simp only at n1
      subst n1
      rfl
  have hidsN : g2.normalize.1.ids = g2.ids := by unfold Graph.ids; rw [n3]
  have harcs : g2.normalize.1.arcs = order.map fun a => (⟨ns.idxOf a.1, ns.idxOf a.2.1, a.2.2 / textSum lines a.1⟩ : Arc F) := by
    rw [n2]
    show (order.map f).map _ = _
    rw [List.map_map]
    apply List.map_congr_left
    intro a ha
    obtain ⟨l, hl, rfl⟩ := List.mem_map.1 (ho.mem_iff.1 ha)
    simp only [Function.comp, f]
    rw [if_pos (by rw [hids, List.mem_range]; exact List.idxOf_lt_length_iff.2 (m1 l hl))]
    rw [hout (arcOf l).1 (m1 l hl)]
  refine ⟨_, _, hprep, hsym, by rw [hidsN, hids], ⟨_, n5, (hsym _ _).2 (hidx _ ms)⟩,
    ⟨_, n6, (hsym _ _).2 (hidx _ me)⟩, ?_, ?_⟩
  · rw [harcs, List.map_map]
    exact hkeys
  · intro a
    rw [harcs, List.mem_map]
    constructor
    · rintro ⟨b, hb, rfl⟩
      obtain ⟨l, hl, rfl⟩ := List.mem_map.1 (ho.mem_iff.1 hb)
      exact ⟨l, hl, (hsym _ _).2 (hidx _ (m1 l hl)), (hsym _ _).2 (hidx _ (m2 l hl)), rfl⟩
    · rintro ⟨l, hl, h1, h2, h3⟩
      refine ⟨arcOf l, ho.mem_iff.2 (List.mem_map.2 ⟨l, hl, rfl⟩), ?_⟩
      have e1 := hidx' _ _ ((hsym _ _).1 h1)
      have e2 := hidx' _ _ ((hsym _ _).1 h2)
      cases a
      simp only at e1 e2 h3
      subst e1 e2 h3
      rfl

/-- The text of a loop with two phones. -/
def exText : List (TextArc ℚ) :=
  [("[s]", "_1", none), ("_1", "[/s]", none), ("_1", "a", some (3 / 4)), ("a", "_1", none), ("_1", "b", some (1 / 4)),
    ("b", "_1", none)]

example : createLines false ["a", "b"] [(3 / 4 : ℚ), 1 / 4] = .ok exText := by decide +kernel

example : (exText.map fun l => (l.1, l.2.1)).Nodup := by decide +kernel

example : ∀ l ∈ exText, textSum exText l.1 ≠ 0 := by decide +kernel

theorem textSum_cons {F : Type} [Field F] (l : TextArc F) (lines : List (TextArc F)) (s : String) :
    textSum (l :: lines) s = (if l.1 = s then l.2.2.getD 1 else 0) + textSum lines s := by
  unfold textSum
  by_cases h : l.1 = s
  · rw [List.filter_cons_of_pos (by simpa using h), if_pos h]; simp
  · rw [List.filter_cons_of_neg (by simpa using h), if_neg h]; simp

theorem textSum_loop {F : Type} [Field F] (weights : List F) : ∀ (phones : List String) (i : ℕ) (r : List (TextArc F)),
    "_1" ∉ phones → loopLines weights phones i = .ok r →
      textSum r "_1" = ((weights.drop i).take phones.length).sum
  | [], i, r, _, h => by
    simp only [loopLines, Except.ok.injEq] at h
    subst h
    simp [textSum]
  | p :: phones, i, r, hp, h => by
    simp only [loopLines] at h
    cases hw : weights[i]? with
    | none => rw [hw] at h; cases h
    | some w =>
      rw [hw] at h
      cases hl : loopLines weights phones (i + 1) with
      | error e => simp only [hl] at h; cases h
      | ok r' =>
        simp only [hl, Except.ok.injEq] at h
        subst h
        have hp' : p ≠ "_1" := fun h => hp (by simp [h])
        rw [textSum_cons, textSum_cons, if_pos rfl, if_neg hp',
          textSum_loop weights phones (i + 1) r' (fun h => hp (by simp [h])) hl]
        obtain ⟨hi, hw'⟩ := List.getElem?_eq_some_iff.1 hw
        rw [List.drop_eq_getElem_cons hi, List.length_cons, List.take_succ_cons, List.sum_cons, hw']
        simp

/-- The weights of the loop. With silence a phone follows with its weight in the language model over the sum of all;
without silence the end of the graph counts as one more phone of weight one, so with a language model the loop stops with
probability one half at every step. -/
theorem C144_weights {F : Type} [Field F] (phones : List String) (hp : Proper phones) (weights : List F)
    (hw : weights.length = phones.length) :
    (∃ lines, createLines false phones weights = .ok lines ∧ textSum lines "_1" = 1 + weights.sum ∧
      ∀ (k : ℕ) (p : String), phones[k]? = some p → ("_1", p, weights[k]?) ∈ lines) ∧
    (phones ≠ [] → ∃ lines, createLines true phones weights = .ok lines ∧ textSum lines "_1" = weights.sum ∧
      ∀ (k : ℕ) (p : String), phones[k]? = some p → ("_1", p, weights[k]?) ∈ lines) := by
  constructor
  · obtain ⟨r, h1, h2⟩ := loopLines_spec weights phones 0 (by omega)
    refine ⟨("[s]", "_1", none) :: ("_1", "[/s]", none) :: r, by simp [createLines, h1], ?_, ?_⟩
    · have hse : ("[s]" : String) ≠ "_1" := by decide
      rw [textSum_cons, textSum_cons, textSum_loop weights phones 0 r hp.2.2 h1, ← hw]
      simp [hse]
    · intro k p hk
      simp only [List.mem_cons, h2]
      exact .inr (.inr (.inr ⟨trivial, k, hk, by simp⟩))
  · intro hne
    match phones, weights, hne, hw with
    | sil :: rest, w :: ws, _, hw =>
      simp only [List.length_cons] at hw
      obtain ⟨r, h1, h2⟩ := loopLines_spec (w :: ws) rest 1 (by simp; omega)
      have hs : sil ≠ "_1" := fun h => hp.2.2 (by simp [h])
      refine ⟨("[s]", sil, none) :: (sil, "[/s]", none) :: (sil, "_1", none) :: ("_1", sil, some w) :: r,
        by simp [createLines, h1], ?_, ?_⟩
      · have hse : ("[s]" : String) ≠ "_1" := by decide
        rw [textSum_cons, textSum_cons, textSum_cons, textSum_cons,
          textSum_loop (w :: ws) rest 1 r (fun h => hp.2.2 (by simp [h])) h1]
        have : rest.length = ws.length := by omega
        simp [this, hse, hs]
      · intro k p hk
        match k, hk with
        | 0, hk =>
          simp only [List.getElem?_cons_zero, Option.some.injEq] at hk
          simp [hk]
        | k + 1, hk =>
          rw [List.getElem?_cons_succ] at hk
          simp only [List.mem_cons, h2]
          exact .inr (.inr (.inr (.inr (.inr ⟨trivial, k, hk, by simp [Nat.add_comm 1 k]⟩))))

example : Proper ["a", "b"] ∧ ([3 / 4, 1 / 4] : List ℚ).length = 2 := ⟨by unfold Proper; decide +kernel, rfl⟩

deriving instance DecidableEq for Graph

/-- Without a language model all the phones have the same weight: one over their number, plus one if there is no silence.
-/
theorem C144_uniform {F : Type} [Field F] (phones : List String) (hp : Proper phones) :
    (∃ lines, createLines false phones (unitWeights phones : List F) = .ok lines ∧
      textSum lines "_1" = (phones.length : F) + 1 ∧ ∀ p ∈ phones, ("_1", p, some 1) ∈ lines) ∧
    (phones ≠ [] → ∃ lines, createLines true phones (unitWeights phones : List F) = .ok lines ∧
      textSum lines "_1" = (phones.length : F) ∧ ∀ p ∈ phones, ("_1", p, some 1) ∈ lines) := by
  have hl : (unitWeights phones : List F).length = phones.length := by simp [unitWeights]
  have hs : (unitWeights phones : List F).sum = phones.length := by simp [unitWeights]
  have hk : ∀ p ∈ phones, ∃ k : ℕ, phones[k]? = some p ∧ (unitWeights phones : List F)[k]? = some 1 := by
    intro p h
    obtain ⟨k, hk, rfl⟩ := List.getElem_of_mem h
    exact ⟨k, List.getElem?_eq_getElem hk, by simp [unitWeights, hk]⟩
  obtain ⟨⟨l1, h1, h2, h3⟩, h4⟩ := C144_weights phones hp (unitWeights phones : List F) hl
  refine ⟨⟨l1, h1, by rw [h2, hs, add_comm], ?_⟩, ?_⟩
  · intro p h
    obtain ⟨k, a, b⟩ := hk p h
    have := h3 k p a
    rwa [b] at this
  · intro hne
    obtain ⟨l2, g1, g2, g3⟩ := h4 hne
    refine ⟨l2, g1, by rw [g2, hs], ?_⟩
    intro p h
    obtain ⟨k, a, b⟩ := hk p h
    have := g3 k p a
    rwa [b] at this

example : Proper ["sil", "a", "b"] := by unfold Proper; decide +kernel

/-- A text with the phone `a` twice. -/
def exTwice : List (TextArc ℚ) :=
  [("[s]", "_1", none), ("_1", "[/s]", none), ("_1", "a", some 1), ("a", "_1", none), ("_1", "a", some 3),
    ("a", "_1", none)]

/-- A graph for this text. -/
def exGraph (p q : ℚ) (back : Bool) : Graph ℚ :=
  ⟨4, [(0, none), (1, none), (2, none), (3, none)],
    if back then [⟨3, 2, 1⟩, ⟨2, 3, q⟩, ⟨2, 0, p⟩, ⟨1, 2, 1⟩] else [⟨1, 2, 1⟩, ⟨2, 0, p⟩, ⟨2, 3, q⟩, ⟨3, 2, 1⟩],
    some 1, some 0⟩

/-- The violation: for a phone listed twice with two weights the graph depends on the order in which Python lists the
arcs. -/
theorem C144_order_fails : ∃ (lines : List (TextArc ℚ)) (o o' : List (String × String × ℚ)) (g g' : Graph ℚ)
    (syms : List (ℕ × String)),
    createLines false ["a", "a"] [1, 3] = .ok lines ∧ o.Perm (lines.map arcOf).dedup ∧
    o'.Perm (lines.map arcOf).dedup ∧
    prepareGraph lines o = .ok (g, syms) ∧ prepareGraph lines o' = .ok (g', syms) ∧
    (2, "_1") ∈ syms ∧ (3, "a") ∈ syms ∧ (⟨2, 3, 1 / 2⟩ : Arc ℚ) ∈ g.arcs ∧ (⟨2, 3, 3 / 4⟩ : Arc ℚ) ∈ g'.arcs := by
  refine ⟨exTwice, exTwice.map arcOf |>.dedup, (exTwice.map arcOf).dedup.reverse, exGraph (1 / 2) (1 / 2) false,
    exGraph (1 / 4) (3 / 4) true, [(0, "[/s]"), (1, "[s]"), (2, "_1"), (3, "a")], ?_, ?_, ?_, ?_, ?_, ?_, ?_, ?_, ?_⟩
  · decide +kernel
  · exact .refl _
  · exact List.reverse_perm _
  · decide +kernel
  · decide +kernel
  · decide
  · decide
  · decide +kernel
  · decide +kernel

/-- Texts without the start or the end are refused. -/
theorem C144_prepare_errors {F : Type} [Field F] [DecidableEq F] (lines : List (TextArc F))
    (order : List (String × String × F))
    (h : (∀ l ∈ lines, l.1 ≠ "[s]" ∧ l.2.1 ≠ "[s]") ∨ ∀ l ∈ lines, l.1 ≠ "[/s]" ∧ l.2.1 ≠ "[/s]") :
    prepareGraph lines order = .error .keyError := by
  have key : ∀ n, (∀ l ∈ lines, l.1 ≠ n ∧ l.2.1 ≠ n) → n ∉ names lines := by
    intro n h hn
    obtain ⟨l, hl, h' | h'⟩ := (names_mem lines n).1 hn
    · exact (h l hl).1 h'.symm
    · exact (h l hl).2 h'.symm
  unfold prepareGraph
  simp only
  rcases h with h | h
  · rw [if_neg (key _ h)]
  · by_cases hs : "[s]" ∈ names lines
    · rw [if_pos hs, if_neg (key _ h)]
    · rw [if_neg hs]

example : prepareGraph [("a", "[/s]", (none : Option ℚ))] [] = .error .keyError :=
  C144_prepare_errors _ _ (.inl (by decide))

end Verif.Props
