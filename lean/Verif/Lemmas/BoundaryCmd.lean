import Verif.Model.BoundaryCmd
import Verif.Spec.BoundaryCmd
import Verif.Lemmas.Eval
import Verif.Lemmas.Scoring
import Std.Data.String.ToNat
import Mathlib.Algebra.BigOperators.Group.List.Basic

/-! # Lemmas about the script which scores boundaries -/

namespace Verif.BoundaryCmd

open Verif Pipeline Scoring Eval Verif.Spec

theorem boundariesLoop_frames (us : List String) (u : String) (f : ℤ) :
    boundariesLoop us u f =
      ((List.range us.length).filter fun k => (u :: us)[k]? ≠ us[k]?).map fun k : ℕ => (k : ℤ) + f := by
  induction us generalizing u f with
  | nil => rfl
  | cons v us ih =>
    have hr : (v :: us).length = us.length + 1 := rfl
    rw [hr, List.range_succ_eq_map, List.filter_cons, List.filter_map]
    have h0 : ((u :: v :: us)[0]? ≠ (v :: us)[0]?) ↔ u ≠ v := by simp
    have hc : ((fun k => decide ((u :: v :: us)[k]? ≠ (v :: us)[k]?)) ∘ Nat.succ) =
        fun k => decide ((v :: us)[k]? ≠ us[k]?) := by
      funext k
      rfl
    have hm : ∀ l : List ℕ, (l.map Nat.succ).map (fun k : ℕ => (k : ℤ) + f) = l.map fun k : ℕ => (k : ℤ) + (f + 1) := by
      intro l
      rw [List.map_map]
      refine List.map_congr_left fun k _ => ?_
      simp only [Function.comp_apply, Nat.succ_eq_add_one, Nat.cast_add, Nat.cast_one]
      ring
    rw [boundariesLoop, hc]
    by_cases h : u = v
    · subst h
      rw [if_neg (by simp), if_neg (by simp), hm]
      exact ih u (f + 1)
    · rw [if_pos (fun h' => h h'.symm), if_pos (by simpa using h), List.map_cons, hm, ih v (f + 1)]
      simp

theorem boundaries_frames (l : List String) (h : l ≠ []) : boundaries l = .ok (boundaryFrames l) := by
  cases l with
  | nil => exact absurd rfl h
  | cons u us =>
    rw [boundaries, boundariesLoop_frames]
    rfl

theorem frames_sorted (l : List String) : (boundaryFrames l).Pairwise (· < ·) := by
  cases l with
  | nil => exact List.Pairwise.nil
  | cons u us =>
    have := boundaries_frames (u :: us) (by simp)
    rw [boundaries] at this
    rw [← Except.ok.inj this]
    exact boundariesLoop_sorted _ _ _

theorem frames_le (l : List String) : ∀ b ∈ boundaryFrames l, b ≤ l.length := by
  intro b hb
  unfold boundaryFrames at hb
  obtain ⟨k, hk, rfl⟩ := List.mem_map.1 hb
  have := List.mem_range.1 (List.mem_filter.1 hk).1
  omega

theorem frames_renamed (f : String → String) (l : List String) (h : Renames f l) :
    boundaryFrames (l.map f) = boundaryFrames l := by
  unfold boundaryFrames
  rw [List.length_map]
  congr 1
  refine List.filter_congr fun k hk => ?_
  have hk := List.mem_range.1 hk
  have h1 : k < l.length := by omega
  have h2 : k + 1 < l.length := by omega
  simp only [List.getElem?_map, List.getElem?_eq_getElem h1, List.getElem?_eq_getElem h2, Option.map_some, ne_eq,
    Option.some.injEq, decide_not]
  have : f l[k] = f l[k + 1] ↔ l[k] = l[k + 1] :=
    ⟨fun e => h _ (List.getElem_mem h1) _ (List.getElem_mem h2) e, fun e => congrArg f e⟩
  simp only [this]

theorem boundaries_renamed (f : String → String) (l : List String) (h : Renames f l) :
    boundaries (l.map f) = boundaries l := by
  by_cases hl : l = []
  · subst hl; rfl
  · rw [boundaries_frames l hl, boundaries_frames (l.map f) (by simpa using hl), frames_renamed f l h]

/-! ## Hits -/

theorem hits_self (delta : ℤ) (hd : 0 ≤ delta) (bs : List ℤ) (hs : bs.Pairwise (· < ·)) (hb : ∀ b ∈ bs, b < 1000000)
    (j n : ℕ) : hitsLoop delta bs (List.replicate j 1000000 ++ bs) n = .ok (n + bs.length) := by
  induction bs generalizing j n with
  | nil => rfl
  | cons b bs ih =>
    obtain ⟨i, d, e⟩ := argmin_ne_nil (l := (List.replicate j 1000000 ++ b :: bs).map fun r => |b - r|) (by simp)
    obtain ⟨e1, e2⟩ := argmin_ok e
    have hle : d ≤ 0 := e2 0 (List.mem_map.2 ⟨b, by simp, by simp⟩)
    rw [List.getElem?_map, Option.map_eq_some_iff] at e1
    obtain ⟨r, hr, hrd⟩ := e1
    have hd0 : |b - r| = 0 := le_antisymm (hrd.trans_le hle) (abs_nonneg _)
    have hbr : r = b := by have := abs_eq_zero.1 hd0; omega
    subst hbr
    have hi : i = j := by
      by_contra hne
      rcases Nat.lt_or_gt_of_ne hne with h | h
      · rw [List.getElem?_append_left (by simpa using h), List.getElem?_replicate, if_pos h] at hr
        have := hb r (by simp)
        have := Option.some.inj hr
        omega
      · rw [List.getElem?_append_right (by simpa using h.le), List.length_replicate] at hr
        obtain ⟨k, hk⟩ : ∃ k, i - j = k + 1 := ⟨i - j - 1, by omega⟩
        rw [hk, List.getElem?_cons_succ] at hr
        have := (List.pairwise_cons.1 hs).1 r (List.mem_of_getElem? hr)
        omega
    subst hi
    rw [hitsLoop, e]
    dsimp only
    rw [if_pos (hle.trans hd)]
    have hset : (List.replicate i (1000000 : ℤ) ++ r :: bs).set i 1000000 = List.replicate (i + 1) 1000000 ++ bs := by
      rw [List.set_append_right _ _ (by simp)]
      simp [List.replicate_succ']
    rw [hset, ih (List.pairwise_cons.1 hs).2 (fun b h => hb b (by simp [h]))]
    congr 1
    simp only [List.length_cons]
    omega

theorem getHits_self (delta : ℤ) (hd : 0 ≤ delta) (bs : List ℤ) (hs : bs.Pairwise (· < ·)) (hb : ∀ b ∈ bs, b < 1000000) :
    getHits bs bs delta = .ok bs.length := by
  have := hits_self delta hd bs hs hb 0 0
  simpa [getHits] using this

/-! ## The loop -/

theorem boundLoop_ok (hyp : Transcript) (delta : ℤ) (n : String × List String → ℕ) (ref : Transcript)
    (h : ∀ p ∈ ref, ∃ t, hyp.lookup p.1 = some t ∧ p.2 ≠ [] ∧ t ≠ [] ∧
      getHits (boundaryFrames p.2) (boundaryFrames t) delta = .ok (n p)) (acc : BAcc) :
    boundLoop hyp delta ref acc = .ok ⟨acc.hits + (ref.map n).sum,
      acc.refCount + (ref.map fun p => (boundaryFrames p.2).length).sum,
      acc.hypCount + (ref.map fun p => (boundaryFrames ((hyp.lookup p.1).getD [])).length).sum,
      acc.printed ++ (ref.filter fun p => (boundaryFrames p.2).length ≠
        (boundaryFrames ((hyp.lookup p.1).getD [])).length).map Prod.fst⟩ := by
  induction ref generalizing acc with
  | nil => simp [boundLoop]
  | cons p ref ih =>
    obtain ⟨utt, refT⟩ := p
    obtain ⟨t, h1, h2, h3, h4⟩ := h _ List.mem_cons_self
    rw [boundLoop, boundaries_frames _ h2]
    dsimp only at h1 h4 ⊢
    rw [dictGet_lookup, h1]
    dsimp only
    rw [boundaries_frames _ h3]
    dsimp only
    rw [h4]
    dsimp only
    rw [ih fun p hp => h p (List.mem_cons_of_mem _ hp)]
    congr 1
    simp only [List.map_cons, List.sum_cons, h1, Option.getD_some, List.filter_cons]
    by_cases hc : (boundaryFrames refT).length ≠ (boundaryFrames t).length
    · simp [hc, add_assoc]
    · simp [hc, add_assoc]

/-- The loop stops at the first utterance which raises. -/
theorem boundLoop_append (hyp : Transcript) (delta : ℤ) (pre : Transcript) (post : Transcript) (acc : BAcc) :
    boundLoop hyp delta (pre ++ post) acc =
      match boundLoop hyp delta pre acc with
      | .error e => .error e
      | .ok acc' => boundLoop hyp delta post acc' := by
  induction pre generalizing acc with
  | nil => rfl
  | cons p pre ih =>
    obtain ⟨utt, refT⟩ := p
    rw [List.cons_append, boundLoop, boundLoop]
    cases boundaries refT with
    | error e => rfl
    | ok rb =>
      cases dictGet hyp utt with
      | error e => rfl
      | ok t =>
        dsimp only
        cases boundaries t with
        | error e => rfl
        | ok hb =>
          dsimp only
          cases getHits rb hb delta with
          | error e => rfl
          | ok n => exact ih _

theorem lookup_renamed (f : String → String) (tr : Transcript) (k : String) :
    (renamed f tr).lookup k = (tr.lookup k).map (List.map f) := lookup_map tr (List.map f) k

theorem boundLoop_renamed (f g : String → String) (delta : ℤ) (ref hyp : Transcript)
    (hr : ∀ p ∈ ref, Renames f p.2) (hh : ∀ p ∈ hyp, Renames g p.2) (acc : BAcc) :
    boundLoop (renamed g hyp) delta (renamed f ref) acc = boundLoop hyp delta ref acc := by
  induction ref generalizing acc with
  | nil => rfl
  | cons p ref ih =>
    obtain ⟨utt, refT⟩ := p
    have e : renamed f ((utt, refT) :: ref) = (utt, refT.map f) :: renamed f ref := rfl
    rw [e, boundLoop, boundLoop, boundaries_renamed f refT (hr _ List.mem_cons_self)]
    cases boundaries refT with
    | error e => rfl
    | ok rb =>
      rw [dictGet_lookup, dictGet_lookup, lookup_renamed]
      dsimp only
      cases hl : hyp.lookup utt with
      | none => rfl
      | some t =>
        have := lookup_mem hyp utt t hl
        dsimp only [Option.map_some]
        rw [boundaries_renamed g t (hh _ this)]
        cases boundaries t with
        | error e => rfl
        | ok hb =>
          dsimp only
          cases getHits rb hb delta with
          | error e => rfl
          | ok n => exact ih (fun p hp => hr p (List.mem_cons_of_mem _ hp)) _

/-! ## Mappings -/

theorem oovName_inj {i j : ℕ} (h : oovName i = oovName j) : i = j := by
  unfold oovName at h
  have h' := congrArg String.toList h
  simp only [String.toList_append] at h'
  have := List.append_cancel_left (List.append_cancel_right h')
  exact Nat.repr_injective (String.toList_injective this)

/-- What the mapping `m'` is to the mapping `m` it comes from: it has the same images, and different new names, below `oov`,
for the other tokens. -/
structure Extends (m m' : List (String × String)) (oov : ℕ) : Prop where
  old : ∀ t v, m.lookup t = some v → m'.lookup t = some v
  new : ∀ t v, m.lookup t = none → m'.lookup t = some v → ∃ i, 1 ≤ i ∧ i < oov ∧ v = oovName i
  inj : ∀ s t v, m.lookup s = none → m.lookup t = none → m'.lookup s = some v → m'.lookup t = some v → s = t

theorem extends_refl (m : List (String × String)) : Extends m m 1 :=
  ⟨fun _ _ h => h, fun _ _ h1 h2 => (Option.some_ne_none _ (h2.symm.trans h1)).elim,
    fun _ _ _ h1 _ h3 => (Option.some_ne_none _ (h3.symm.trans h1)).elim⟩

theorem extends_add (m m' : List (String × String)) (oov : ℕ) (h1 : 1 ≤ oov) (h : Extends m m' oov) (token : String)
    (ht : m'.lookup token = none) : Extends m (dictSet m' token (oovName oov)) (oov + 1) := by
  refine ⟨fun t v e => ?_, fun t v e1 e2 => ?_, fun s t v e1 e2 e3 e4 => ?_⟩
  · rw [lookup_dictSet, if_neg]
    · exact h.old t v e
    · rintro rfl
      rw [h.old _ _ e] at ht
      cases ht
  · rw [lookup_dictSet] at e2
    split at e2
    · exact ⟨oov, h1, by omega, (Option.some.inj e2).symm⟩
    · obtain ⟨i, a, b, c⟩ := h.new t v e1 e2
      exact ⟨i, a, by omega, c⟩
  · rw [lookup_dictSet] at e3 e4
    split at e3 <;> split at e4
    · rename_i a b; rw [a, b]
    · obtain ⟨i, _, b, c⟩ := h.new t v e2 e4
      have := oovName_inj ((Option.some.inj e3).trans c)
      omega
    · obtain ⟨i, _, b, c⟩ := h.new s v e1 e3
      have := oovName_inj ((Option.some.inj e4).trans c)
      omega
    · exact h.inj s t v e1 e2 e3 e4

theorem mapTokensOov_spec (m : List (String × String)) (ts : List String) (m' : List (String × String)) (oov : ℕ)
    (tmp : List String) (h1 : 1 ≤ oov) (h : Extends m m' oov) :
    ∃ m'' oov', mapTokensOov ts m' oov tmp = (m'', oov', tmp ++ ts.map fun t => (m''.lookup t).getD "") ∧
      1 ≤ oov' ∧ Extends m m'' oov' ∧ (∀ t v, m'.lookup t = some v → m''.lookup t = some v) ∧
      (∀ t, m''.lookup t ≠ none ↔ m'.lookup t ≠ none ∨ t ∈ ts) := by
  induction ts generalizing m' oov tmp with
  | nil => exact ⟨m', oov, by simp [mapTokensOov], h1, h, fun _ _ h => h, by simp⟩
  | cons token ts ih =>
    rw [mapTokensOov, dictGet_lookup]
    cases hl : m'.lookup token with
    | some v =>
      dsimp only
      obtain ⟨m'', oov', e, a, b, c, d⟩ := ih m' oov (tmp ++ [v]) h1 h
      refine ⟨m'', oov', ?_, a, b, c, fun t => ?_⟩
      · rw [e]
        simp [c _ _ hl]
      · rw [d, List.mem_cons]
        constructor
        · rintro (h | h)
          · exact .inl h
          · exact .inr (.inr h)
        · rintro (h | rfl | h)
          · exact .inl h
          · exact .inl (by rw [hl]; simp)
          · exact .inr h
    | none =>
      dsimp only
      obtain ⟨m'', oov', e, a, b, c, d⟩ := ih _ (oov + 1) (tmp ++ [oovName oov]) (by omega) (extends_add m m' oov h1 h token hl)
      have hself : (dictSet m' token (oovName oov)).lookup token = some (oovName oov) := by rw [lookup_dictSet, if_pos rfl]
      refine ⟨m'', oov', ?_, a, b, fun t v ht => c t v ?_, fun t => ?_⟩
      · rw [e]
        simp [c _ _ hself]
      · rw [lookup_dictSet, if_neg]
        · exact ht
        · rintro rfl
          rw [hl] at ht
          cases ht
      · rw [d, List.mem_cons, lookup_dictSet]
        by_cases ht : t = token
        · simp [ht]
        · simp [ht]

theorem mapTransOovLoop_spec (m : List (String × String)) (tr : Transcript) (m' : List (String × String)) (oov : ℕ)
    (new : Transcript) (h1 : 1 ≤ oov) (h : Extends m m' oov) (hn : (new.map Prod.fst ++ tr.map Prod.fst).Nodup) :
    ∃ m'' oov', mapTransOovLoop tr m' oov new = (m'', new ++ renamed (fun t => (m''.lookup t).getD "") tr) ∧
      1 ≤ oov' ∧ Extends m m'' oov' ∧ (∀ t v, m'.lookup t = some v → m''.lookup t = some v) ∧
      (∀ t, m''.lookup t ≠ none ↔ m'.lookup t ≠ none ∨ ∃ p ∈ tr, t ∈ p.2) := by
  induction tr generalizing m' oov new with
  | nil => exact ⟨m', oov, by simp [mapTransOovLoop, renamed], h1, h, fun _ _ h => h, by simp⟩
  | cons p tr ih =>
    obtain ⟨utt, ts⟩ := p
    obtain ⟨m1, o1, e1, a1, b1, c1, d1⟩ := mapTokensOov_spec m ts m' oov [] h1 h
    have hnew : utt ∉ new.map Prod.fst := by
      intro hm
      have := (List.nodup_append.1 hn).2.2 utt hm utt (by simp)
      exact this rfl
    have hset : dictSet new utt (ts.map fun t => (m1.lookup t).getD "") =
        new ++ [(utt, ts.map fun t => (m1.lookup t).getD "")] := by
      unfold dictSet
      rw [if_neg hnew]
    obtain ⟨m2, o2, e2, a2, b2, c2, d2⟩ := ih m1 o1 (new ++ [(utt, ts.map fun t => (m1.lookup t).getD "")]) a1 b1 (by
      simpa using hn)
    refine ⟨m2, o2, ?_, a2, b2, fun t v ht => c2 t v (c1 t v ht), fun t => ?_⟩
    · rw [mapTransOovLoop, e1]
      dsimp only
      rw [List.nil_append, hset, e2, List.append_assoc]
      congr 2
      have : ts.map (fun t => (m1.lookup t).getD "") = ts.map fun t => (m2.lookup t).getD "" := by
        refine List.map_congr_left fun t ht => ?_
        have hne : m1.lookup t ≠ none := (d1 t).2 (.inr ht)
        obtain ⟨v, hv⟩ := Option.ne_none_iff_exists'.1 hne
        rw [hv, c2 t v hv]
      rw [this]
      rfl
    · rw [d2, d1]
      simp [or_assoc]

/-- `map_trans`: every token gets its image; the unknown ones get new names, different ones for different tokens. -/
theorem mapTransOov_spec (m : List (String × String)) (tr : Transcript) (hn : (tr.map Prod.fst).Nodup) :
    ∃ m' oov, mapTransOov tr m = (m', renamed (fun t => (m'.lookup t).getD "") tr) ∧ Extends m m' oov ∧
      ∀ t, m'.lookup t ≠ none ↔ m.lookup t ≠ none ∨ ∃ p ∈ tr, t ∈ p.2 := by
  obtain ⟨m', oov, e, _, b, _, d⟩ := mapTransOovLoop_spec m tr m 1 [] le_rfl (extends_refl m) (by simpa using hn)
  exact ⟨m', oov, by simpa [mapTransOov] using e, b, d⟩

/-- Nothing is added when all the tokens are known. -/
theorem mapTokensOov_known (m : List (String × String)) (ts : List String) (oov : ℕ) (tmp : List String)
    (h : ∀ t ∈ ts, m.lookup t ≠ none) :
    mapTokensOov ts m oov tmp = (m, oov, tmp ++ ts.map fun t => (m.lookup t).getD "") := by
  induction ts generalizing tmp with
  | nil => simp [mapTokensOov]
  | cons token ts ih =>
    obtain ⟨v, hv⟩ := Option.ne_none_iff_exists'.1 (h token (by simp))
    rw [mapTokensOov, dictGet_lookup, hv]
    dsimp only
    rw [ih _ fun t ht => h t (by simp [ht])]
    simp [hv]

theorem mapTransOov_known (m : List (String × String)) (tr : Transcript) (hn : (tr.map Prod.fst).Nodup)
    (h : ∀ p ∈ tr, ∀ t ∈ p.2, m.lookup t ≠ none) :
    mapTransOov tr m = (m, renamed (fun t => (m.lookup t).getD "") tr) := by
  have key : ∀ (tr new : Transcript) (oov : ℕ), (new.map Prod.fst ++ tr.map Prod.fst).Nodup →
      (∀ p ∈ tr, ∀ t ∈ p.2, m.lookup t ≠ none) →
      mapTransOovLoop tr m oov new = (m, new ++ renamed (fun t => (m.lookup t).getD "") tr) := by
    intro tr
    induction tr with
    | nil => intro new oov _ _; simp [mapTransOovLoop, renamed]
    | cons p tr ih =>
      intro new oov hn h
      obtain ⟨utt, ts⟩ := p
      have hnew : utt ∉ new.map Prod.fst := fun hm => (List.nodup_append.1 hn).2.2 utt hm utt (by simp) rfl
      rw [mapTransOovLoop, mapTokensOov_known m ts oov [] (h _ List.mem_cons_self)]
      dsimp only
      have hset : ∀ x, dictSet new utt x = new ++ [(utt, x)] := by
        intro x
        unfold dictSet
        rw [if_neg hnew]
      rw [hset, ih _ _ (by simpa using hn) fun p hp => h p (List.mem_cons_of_mem _ hp)]
      simp [renamed]
  simpa [mapTransOov] using key tr [] 1 (by simpa using hn) h

end Verif.BoundaryCmd
