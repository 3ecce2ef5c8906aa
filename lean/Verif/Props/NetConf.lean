import Verif.Lemmas.NetConf

/-!
# C122, C123: neural networks from configurations
-/

namespace Verif.Props

open Verif Pipeline NetConf NetConfSpec

/-! ## C122: reading the elements -/

/-- An element written `name:arg1=val1;arg2=val2`, with white space anywhere, is read back. -/
theorem C122_read_partial (s name : List Char) (kwargs : List (List Char × List Char))
    (hs : s.filter (fun c => !c.isWhitespace) = render ';' name kwargs) (hn : Plain name)
    (hk : ∀ p ∈ kwargs, Plain p.1 ∧ Plain p.2) (hd : (kwargs.map Prod.fst).Nodup) :
    parseElement s = .ok (name, kwargs) := by
  rw [parse_render s name kwargs hs (fun h => (hn _ h).1 rfl) fun p hp =>
    ⟨fun c hc => ⟨((hk p hp).1 c hc).1, ((hk p hp).1 c hc).2.1, ((hk p hp).1 c hc).2.2.1⟩,
      fun c hc => ⟨((hk p hp).2 c hc).1, ((hk p hp).2 c hc).2.1, ((hk p hp).2 c hc).2.2.1⟩⟩,
    foldl_dictSet_nodup_eq _ _ (by simpa using hd)]
  rfl

example : parseElement " Linear: in_features = 10 ; out_features=20".toList =
    .ok ("Linear".toList, [("in_features".toList, "10".toList), ("out_features".toList, "20".toList)]) := by
  decide +kernel

/-- The code violates its documentation: the documented form, with `,` between the arguments, is refused as soon
as there are two arguments. -/
theorem C122_documented_form_refused (name : List Char) (p q : List Char × List Char)
    (kwargs : List (List Char × List Char)) (hn : Plain name)
    (hk : ∀ r ∈ p :: q :: kwargs, Plain r.1 ∧ Plain r.2) :
    parseElement (render ',' name (p :: q :: kwargs)) = .error .valueError := by
  have hplain : ∀ c, (∀ r ∈ p :: q :: kwargs, Plain r.1 ∧ Plain r.2) →
      c ∈ joinWith ',' ((p :: q :: kwargs).map fun p => p.1 ++ '=' :: p.2) →
      c ≠ ':' ∧ c ≠ ';' ∧ c.isWhitespace = false := by
    intro c hk hc
    rcases mem_joinWith _ _ _ hc with rfl | ⟨x, hx, hc⟩
    · decide
    · obtain ⟨r, hr, rfl⟩ := List.mem_map.1 hx
      rw [List.mem_append, List.mem_cons] at hc
      rcases hc with hc | rfl | hc
      · have := (hk r hr).1 c hc; exact ⟨this.1, this.2.1, this.2.2.2.2⟩
      · decide
      · have := (hk r hr).2 c hc; exact ⟨this.1, this.2.1, this.2.2.2.2⟩
  have hns : (render ',' name (p :: q :: kwargs)).filter (fun c => !c.isWhitespace) =
      render ',' name (p :: q :: kwargs) := by
    rw [List.filter_eq_self]
    intro c hc
    unfold render at hc
    rw [if_neg (by simp), List.mem_append, List.mem_cons] at hc
    rcases hc with hc | rfl | hc
    · simp [(hn c hc).2.2.2.2]
    · decide
    · simp [(hplain c hk hc).2.2]
  unfold parseElement
  dsimp only
  rw [hns]
  have hr : render ',' name (p :: q :: kwargs) =
      name ++ ':' :: joinWith ',' ((p :: q :: kwargs).map fun p => p.1 ++ '=' :: p.2) := by
    unfold render
    rw [if_neg (by simp)]
  rw [hr, if_pos (by simp), splitOn_append _ _ _ fun h => (hn _ h).1 rfl,
    splitOn_none _ _ fun h => (hplain _ hk h).1 rfl]
  dsimp only
  rw [splitOn_none _ _ fun h => (hplain _ hk h).2.1 rfl, parseArgs_error]
  refine ⟨_, List.mem_singleton_self _, ?_⟩
  rw [count_join _ _ (by decide) fun r hr =>
    ⟨fun h => ((hk r hr).1 _ h).2.2.1 rfl, fun h => ((hk r hr).2 _ h).2.2.1 rfl⟩]
  simp

/-- The example of the docstring (lines 86-89). -/
example : parseElement "Linear:in_features=10,out_features=20".toList = .error .valueError := by decide +kernel

/-- Texts that are refused: two colons, or an argument without exactly one `=` sign. -/
theorem C122_refused (s : List Char) :
    (1 < (s.filter fun c => !c.isWhitespace).count ':' → parseElement s = .error .valueError) ∧
    (∀ name args, s.filter (fun c => !c.isWhitespace) = name ++ ':' :: joinWith ';' args → ':' ∉ name →
      (∀ a ∈ args, ':' ∉ a ∧ ';' ∉ a) → (∃ a ∈ args, a.count '=' ≠ 1) →
      parseElement s = .error .valueError) := by
  constructor
  · intro h
    unfold parseElement
    dsimp only
    rw [if_pos (List.count_pos_iff.1 (by omega))]
    have hl := splitOn_length ':' (s.filter fun c => !c.isWhitespace)
    split
    · rename_i name args hsp
      rw [hsp] at hl
      simp only [List.length_cons, List.length_nil] at hl
      omega
    · rfl
  · intro name args hs hn ha hex
    unfold parseElement
    dsimp only
    have hc : ':' ∉ joinWith ';' args := by
      intro h
      rcases mem_joinWith _ _ _ h with h | ⟨a, h1, h2⟩
      · exact absurd h (by decide)
      · exact (ha a h1).1 h2
    rw [hs, if_pos (by simp), splitOn_append _ _ _ hn, splitOn_none _ _ hc]
    dsimp only
    rw [splitOn_join _ _ (by rintro rfl; simp at hex) fun a h => (ha a h).2, parseArgs_error _ _ hex]

example : parseElement "ReLU:".toList = .error .valueError ∧ parseElement "a:b:c=1".toList = .error .valueError := by
  decide +kernel

/-- Elements separated by `|` are created in order; one alone is the layer itself, several are merged. -/
theorem C122_elements {A L : Type} [DecidableEq A] (torchNN : List Char → Option (Constructor A L))
    (ext : Extensions A L) (lit : List Char → Except Err A) (strs : List (List Char)) (mk : List Char → L)
    (hne : strs ≠ []) (hbar : ∀ s ∈ strs, '|' ∉ s) (hok : ∀ s ∈ strs, createOne torchNN ext lit s = .ok (mk s)) :
    createElement torchNN ext lit (joinWith '|' strs) =
      .ok (if strs.length = 1 then .single (mk (strs.headD [])) else .merge (strs.map mk)) := by
  unfold createElement
  rw [splitOn_join _ _ hne hbar, Eval.listComp_ok _ mk _ hok]
  match strs, hne with
  | [s], _ => rfl
  | s :: t :: rest, _ => simp

/-- The layers: a name of `torch.nn` has priority, then the three layers of the module; any other name is
refused; the values are read by `ast.literal_eval` and given by name. -/
theorem C122_layer {A L : Type} [DecidableEq A] (torchNN : List Char → Option (Constructor A L))
    (ext : Extensions A L) (lit : List Char → Except Err A) (s name : List Char)
    (kwargs : List (List Char × List Char)) (val : List Char → A) (hp : parseElement s = .ok (name, kwargs))
    (hl : ∀ p ∈ kwargs, lit p.2 = .ok (val p.2)) :
    (∀ f, torchNN name = some f → createOne torchNN ext lit s = f (kwargs.map fun p => (p.1, val p.2))) ∧
    (torchNN name = none → name ∉ ["ReshapeLayer".toList, "TransposeLayer".toList, "IdentityLayer".toList] →
      createOne torchNN ext lit s = .error .valueError) ∧
    (torchNN name = none → name = "IdentityLayer".toList → kwargs = [] →
      createOne torchNN ext lit s = .ok ext.identity) ∧
    (torchNN name = none → name = "TransposeLayer".toList → kwargs = [] →
      createOne torchNN ext lit s = .ok ext.transpose) ∧
    (∀ v, torchNN name = none → name = "ReshapeLayer".toList → kwargs = [("shape".toList, v)] →
      createOne torchNN ext lit s = .ok (ext.reshape (val v))) := by
  have hcomp (g : List Char × List Char → Except Err (List Char × A))
      (hg : ∀ p ∈ kwargs, g p = .ok (p.1, val p.2)) :
      Eval.listComp g kwargs = .ok (kwargs.map fun p => (p.1, val p.2)) := Eval.listComp_ok g _ _ hg
  unfold createOne
  rw [hp]
  dsimp only
  refine ⟨fun f hf => ?_, fun h0 hn => ?_, fun h0 hn hk => ?_, fun h0 hn hk => ?_, fun v h0 hn hk => ?_⟩
  · unfold constructorOf
    rw [hf]
    dsimp only
    rw [hcomp _ fun p hp => by rw [hl p hp]]
  · simp only [List.mem_cons, List.not_mem_nil, or_false, not_or] at hn
    unfold constructorOf
    rw [h0]
    dsimp only
    rw [if_neg hn.1, if_neg hn.2.1, if_neg hn.2.2]
  · subst hn hk
    unfold constructorOf
    rw [h0]
    rfl
  · subst hn hk
    unfold constructorOf
    rw [h0]
    rfl
  · subst hn hk
    unfold constructorOf
    rw [h0]
    dsimp only
    rw [if_pos rfl]
    dsimp only
    rw [hcomp _ fun p hp => by rw [hl p hp]]
    exact if_pos rfl

example : createElement (A := ℕ) (L := ℕ) (fun n => if n = "Const".toList then
      some (fun k => .ok (k.map Prod.snd).sum) else none) ⟨id, 100, 200⟩ (fun s => .ok s.length)
    "Const:a=xxx;b=yy|IdentityLayer".toList = .ok (.merge [5, 200]) := by rfl

/-- A network has a block for every block of the configuration, with an element for every text of its structure,
in order, and a residual connection when one is given; if one text is refused there is no network. -/
theorem C122_create {A L : Type} [DecidableEq A] (torchNN : List Char → Option (Constructor A L))
    (ext : Extensions A L) (lit : List Char → Except Err A) (conf : List BlockConf) :
    (∀ mk : List Char → Element L,
      (∀ b ∈ conf, ∀ s ∈ b.structure_ ++ b.residual.toList, createElement torchNN ext lit s = .ok (mk s)) →
      create torchNN ext lit conf = .ok (conf.map fun b => ⟨b.structure_.map mk, b.residual.map mk⟩)) ∧
    (∀ b ∈ conf, ∀ s ∈ b.structure_ ++ b.residual.toList, ∀ e, createElement torchNN ext lit s = .error e →
      ∃ e', create torchNN ext lit conf = .error e') := by
  constructor
  · intro mk h
    unfold create
    apply Eval.listComp_ok
    intro b hb
    unfold createBlock
    rw [Eval.listComp_ok _ mk _ fun s hs => h b hb s (List.mem_append_left _ hs)]
    dsimp only
    cases hr : b.residual with
    | none => rfl
    | some r =>
      dsimp only
      rw [h b hb r (List.mem_append_right _ (by simp [hr]))]
      rfl
  · intro b hb s hs e he
    refine listComp_fails _ _ _ hb ?_
    unfold createBlock
    rcases List.mem_append.1 hs with hs | hs
    · obtain ⟨e', h'⟩ := listComp_fails _ _ _ hs ⟨e, he⟩
      rw [h']
      exact ⟨e', rfl⟩
    · cases Eval.listComp (createElement torchNN ext lit) b.structure_ with
      | error e' => exact ⟨e', rfl⟩
      | ok elems =>
        cases hr : b.residual with
        | none => simp [hr] at hs
        | some r =>
          simp only [hr, Option.toList_some, List.mem_singleton] at hs
          subst hs
          dsimp only
          rw [he]
          exact ⟨e, rfl⟩

example : create (A := ℕ) (L := ℕ) (fun _ => none) ⟨id, 100, 200⟩ (fun s => .ok s.length)
    [⟨["TransposeLayer".toList, "ReshapeLayer: shape=xx".toList], some "IdentityLayer".toList⟩, ⟨[], none⟩] =
    .ok [⟨[.single 100, .single 2], some (.single 200)⟩, ⟨[], none⟩] := by rfl

/-! ## C123: what the networks compute -/

section

variable {V : Type} [AddCommMonoid V]

/-- A merge of transforms applied to as many inputs is the sum of the transformed inputs; without input it is
refused. -/
theorem C123_merge (fs : List (V → V)) (xs : List V) (hl : fs.length = xs.length) (hne : fs ≠ []) :
    mergeForward fs xs = .ok ((List.zipWith (fun f x => f x) fs xs).sum) ∧
    mergeForward fs [] = .error .indexError := by
  match fs, xs with
  | [], _ => exact absurd rfl hne
  | f :: fs, [] => simp at hl
  | f :: fs, x :: xs =>
    refine ⟨?_, rfl⟩
    unfold mergeForward
    dsimp only
    rw [foldl_zip_sum, List.zipWith_cons_cons, List.sum_cons, List.zip, List.map_zipWith, List.zipWith_comm]

/-- The code violates the documented sum when it is given fewer inputs than transforms, without complaint: inside
a network every element gets one input, so that only the first transform of `a|b|c` is applied. -/
theorem C123_merge_in_network (f : V → V) (fs : List (V → V)) (x : V) :
    elementForward (.merge (f :: fs)) x = .ok (f x) := by
  cases fs <;> rfl

example : mergeForward [fun n : ℕ => n + 1, fun n => 10 * n] [1, 2] = .ok 22 ∧
    elementForward (.merge [fun n : ℕ => n + 1, fun n => 10 * n]) 1 = .ok 2 := ⟨rfl, rfl⟩

/-- The first input is overwritten by the result when the first transform returns it unchanged
(`IdentityLayer`). -/
theorem C123_merge_overwrites (f : V → V) (x y : V) :
    mergeFirstInput true [id, f] [x, y] = some (x + f y) ∧ mergeFirstInput false [id, f] [x, y] = some x :=
  ⟨rfl, rfl⟩

example : mergeFirstInput true [id, fun n : ℕ => 2 * n] [5, 7] = some 19 := rfl

/-- The function of an element made of one layer (of the first one for a merge). -/
def headLayer : Element (V → V) → V → V
  | .single f => f
  | .merge fs => fs.headD id

/-- A network is the composition, in order, of its blocks; a block is the composition, in order, of its layers,
plus its residual connection applied to the input of the block. -/
theorem C123_network (net : List (Block (V → V)))
    (h : ∀ b ∈ net, (∀ e ∈ b.elems, e ≠ .merge []) ∧ b.residual ≠ some (.merge [])) (x : V) :
    netForward net x = .ok (net.foldl (fun h b =>
      match b.residual with
      | none => b.elems.foldl (fun h e => headLayer e h) h
      | some r => b.elems.foldl (fun h e => headLayer e h) h + headLayer r h) x) := by
  have helem : ∀ e : Element (V → V), e ≠ .merge [] → ∀ x, elementForward e x = .ok (headLayer e x) := by
    intro e he x
    match e with
    | .single f => rfl
    | .merge [] => exact absurd rfl he
    | .merge (f :: fs) => exact C123_merge_in_network f fs x
  unfold netForward
  apply seqForward_single
  intro b hb x
  obtain ⟨h1, h2⟩ := h b hb
  unfold blockForward
  rw [seqForward_single elementForward (fun e x => headLayer e x) _ fun e he x => helem e (h1 e he) x]
  dsimp only
  cases hr : b.residual with
  | none => rfl
  | some r =>
    dsimp only
    rw [helem r (by rintro rfl; exact h2 hr)]

example : netForward [⟨[.single (fun n : ℕ => n + 1), .single (fun n => 2 * n)], some (.single id)⟩,
    ⟨[.single (fun n => n + 100)], none⟩] 3 = .ok 111 := rfl

end

/-- A residual network has the dimension of its input and moves every coordinate by less than its number of
blocks; without block it is the identity. -/
theorem C123_residual {D W : ℕ} (blocks : List (Nnet.Linear D W × Nnet.Linear W D)) (x : Fin D → ℝ) (d : Fin D) :
    (blocks ≠ [] → |resNet blocks x d - x d| < blocks.length) ∧ resNet ([] : List (Nnet.Linear D W × Nnet.Linear W D)) x = x :=
  ⟨(resNet_near blocks x d).2, rfl⟩

/-- With a zero second layer a block is the identity. -/
example {D W : ℕ} (l : Nnet.Linear D W) (x : Fin D → ℝ) : resNet [(l, ⟨fun _ _ => 0, fun _ => 0⟩)] x = x := by
  funext d
  simp [resNet, resBlock, Nnet.Linear.forward]

end Verif.Props
