import Verif.Model.LoopTrain
import Verif.Lemmas.PostCmd
import Verif.Props.PostCmd
import Verif.Props.PhoneLoop

/-! # Helper lemmas: the support of the transitions of a phone loop -/

namespace Verif.LoopTrain

open Verif Verif.Spec Verif.Graph Verif.Props Verif.DecodeCmd Verif.Pipeline Verif.PhoneLoop

variable {n P : ℕ}

/-- An entry of the row of a phone end after a refresh. -/
theorem refreshEnd_cases (starts : Fin P → Fin n) (w : Fin P → ℝ) (T : TMat n) (e a d : Fin n) :
    (refreshEnd starts w T e a d = T a d ∧ (a = e → ∀ j, starts j ≠ d)) ∨
    (a = e ∧ ∃ j, starts j = d ∧ refreshEnd starts w T e a d = llog (1 - lexp (T e e)) + (w j : LogR)) := by
  unfold refreshEnd
  generalize llog (1 - lexp (T e e)) = r
  suffices h : ∀ (l : List (Fin P)) (T : TMat n),
      ((l.foldl (fun T j => setEntry T e (starts j) (r + (w j : LogR))) T) a d = T a d ∧ (a = e → ∀ j ∈ l, starts j ≠ d)) ∨
      (a = e ∧ ∃ j, starts j = d ∧ (l.foldl (fun T j => setEntry T e (starts j) (r + (w j : LogR))) T) a d = r + (w j : LogR)) by
    rcases h (List.finRange P) T with ⟨h1, h2⟩ | h
    · exact .inl ⟨h1, fun ha j => h2 ha j (List.mem_finRange j)⟩
    · exact .inr h
  intro l
  induction l with
  | nil => intro T; exact .inl ⟨rfl, fun _ _ h => absurd h (by simp)⟩
  | cons j l ih =>
    intro T
    rw [List.foldl_cons]
    rcases ih (setEntry T e (starts j) (r + (w j : LogR))) with ⟨h1, h2⟩ | h
    · rw [h1]
      by_cases ha : a = e
      · subst ha
        by_cases hd : starts j = d
        · subst hd
          refine .inr ⟨rfl, j, rfl, ?_⟩
          simp [setEntry]
        · refine .inl ⟨?_, fun _ k hk => ?_⟩
          · simp [setEntry, Function.update_of_ne (Ne.symm hd)]
          · rcases List.mem_cons.1 hk with rfl | hk
            · exact hd
            · exact h2 rfl k hk
      · refine .inl ⟨?_, fun h => absurd h ha⟩
        simp [setEntry, Function.update_of_ne ha]
    · exact .inr h

/-- The transitions `T` are possible where `S` says, and the phone ends have self-loops below one. -/
def Sup (S : Fin n → Fin n → Prop) (ends : List (Fin n)) (T : TMat n) : Prop :=
  (∀ a b, T a b ≠ ⊥ ↔ S a b) ∧ ∀ e ∈ ends, lexp (T e e) < 1

theorem refreshEnd_sup (S : Fin n → Fin n → Prop) (ends : List (Fin n)) (starts : Fin P → Fin n)
    (hS : ∀ e ∈ ends, ∀ j, S e (starts j)) (w : Fin P → ℝ) (hw : ∀ j, w j ≤ 0) (T : TMat n) (hT : Sup S ends T)
    (e : Fin n) (he : e ∈ ends) : Sup S ends (refreshEnd starts w T e) := by
  have hlt := hT.2 e he
  have hr : llog (1 - lexp (T e e)) ≠ ⊥ := (llog_ne_bot _ (by linarith)).2 (by linarith)
  constructor
  · intro a b
    rcases refreshEnd_cases starts w T e a b with ⟨h, -⟩ | ⟨rfl, j, rfl, h⟩
    · rw [h]; exact hT.1 a b
    · rw [h]
      refine ⟨fun _ => hS a he j, fun _ => ?_⟩
      rw [Ne, WithBot.add_eq_bot, not_or]
      exact ⟨hr, WithBot.coe_ne_bot⟩
  · intro x hx
    rcases refreshEnd_cases starts w T e x x with ⟨h, -⟩ | ⟨rfl, j, hj, h⟩
    · rw [h]; exact hT.2 x hx
    · rw [h, lexp_add, lexp_llog (by linarith), lexp_coe]
      have h0 : 0 < lexp (T x x) := lexp_pos_iff.2 ((hT.1 x x).2 (hj ▸ hS x he j : S x x))
      have h1 : Real.exp (w j) ≤ 1 := Real.exp_le_one_iff.2 (hw j)
      have h2 := Real.exp_pos (w j)
      nlinarith

theorem onUpdate_sup (S : Fin n → Fin n → Prop) (s e : List (Fin n)) (hS : ∀ x ∈ e, ∀ y ∈ s, S x y)
    (W : ℕ → ℕ → ℝ) (hW : ∀ i j, W i j ≤ 0) (T : TMat n) (hT : Sup S e T) : Sup S e (onUpdate s e T W) := by
  unfold onUpdate
  suffices h : ∀ (l : List (Fin n × ℕ)), (∀ p ∈ l, p.1 ∈ e) → ∀ T, Sup S e T →
      Sup S e (l.foldl (fun T p => refreshEnd (fun j : Fin s.length => s[j.1]) (fun j => W p.2 j.1) T p.1) T) from
    h _ (fun p hp => (List.mem_zipIdx' hp).2 ▸ List.getElem_mem _) T hT
  intro l
  induction l with
  | nil => intro _ T hT; exact hT
  | cons p l ih =>
    intro hl T hT
    rw [List.foldl_cons]
    refine ih (fun q hq => hl q (List.mem_cons_of_mem _ hq)) _ ?_
    exact refreshEnd_sup S e _ (fun x hx j => hS x hx _ (List.getElem_mem _)) _ (fun j => hW _ _) T hT _
      (hl p List.mem_cons_self)

theorem history_sup (S : Fin n → Fin n → Prop) (s e : List (Fin n)) (hS : ∀ x ∈ e, ∀ y ∈ s, S x y)
    (history : List (ℕ → ℕ → ℝ)) (hW : ∀ W ∈ history, ∀ i j, W i j ≤ 0) (T : TMat n) (hT : Sup S e T) :
    Sup S e (history.foldl (onUpdate s e) T) := by
  induction history generalizing T with
  | nil => exact hT
  | cons W history ih =>
    rw [List.foldl_cons]
    exact ih (fun W hW' => hW W (List.mem_cons_of_mem _ hW')) _
      (onUpdate_sup S s e hS W (hW W List.mem_cons_self) T hT)

theorem indices_ok (n : ℕ) (d : List (String × Option ℕ)) (h : ∀ p ∈ d, ∃ v, p.2 = some v ∧ v < n) :
    ∃ l, indices n d = .ok l ∧ l.map Fin.val = d.filterMap Prod.snd := by
  induction d with
  | nil => exact ⟨[], rfl, rfl⟩
  | cons p d ih =>
    obtain ⟨u, o⟩ := p
    obtain ⟨v, hv, hvn⟩ := h _ List.mem_cons_self
    dsimp only at hv
    subst hv
    obtain ⟨l, h1, h2⟩ := ih fun p hp => h p (List.mem_cons_of_mem _ hp)
    refine ⟨⟨v, hvn⟩ :: l, ?_, ?_⟩
    · simp only [indices, dif_pos hvn, h1]
    · simp [h2]

/-- A state with a transition elsewhere has a self-loop below one. -/
theorem compiled_loop_lt (g : Graph ℝ) (c : Compiled ℝ) (hc : g.compile = .ok c) (hn : Nonneg c)
    (a b : ℕ) (ha : a < c.pdfMapping.length) (hb : b < c.pdfMapping.length)
    (hab : b ≠ a) (hpos : 0 < c.trans a b) : c.trans a a < 1 := by
  obtain ⟨t, ht⟩ : ∃ t : ℕ → ℕ → ℝ, c.trans = fun i => normalizeRow g.emitting.length (t i) i := by
    unfold compile at hc
    dsimp only at hc
    split at hc
    · cases hc
    · split at hc
      · cases hc
      · split at hc
        · cases hc
        · have := Except.ok.inj hc
          rw [← this]
          exact ⟨_, rfl⟩
  have hlen : g.emitting.length = c.pdfMapping.length := by
    have hm : c.pdfMapping = g.pdfMapping := by
      unfold compile at hc
      dsimp only at hc
      split at hc
      · cases hc
      · split at hc
        · cases hc
        · split at hc
          · cases hc
          · rw [← Except.ok.inj hc]
    rw [hm]
    unfold emitting Graph.pdfMapping
    induction g.states with
    | nil => rfl
    | cons x l ih =>
      obtain ⟨i, o⟩ := x
      cases o with
      | none => simpa using ih
      | some v => simpa using ih
  rw [hlen] at ht
  set N := c.pdfMapping.length with hN
  have hrow : c.trans a = normalizeRow N (t a) a := by rw [ht]
  have hsum : ∀ f : ℕ → ℝ, ((List.range N).map f).sum - f a = ∑ k ∈ (Finset.range N).erase a, f k := by
    intro f
    rw [show ((List.range N).map f).sum = ∑ k ∈ Finset.range N, f k from rfl,
      ← Finset.add_sum_erase _ f (Finset.mem_range.2 ha)]
    ring
  have hoff : 0 < ∑ k ∈ (Finset.range N).erase a, c.trans a k := by
    refine Finset.sum_pos' (fun k hk => hn.2.2 a ha k (Finset.mem_range.1 (Finset.mem_of_mem_erase hk)))
      ⟨b, Finset.mem_erase.2 ⟨hab, Finset.mem_range.2 hb⟩, hpos⟩
  rw [hrow] at hoff ⊢
  unfold normalizeRow at hoff ⊢
  rw [hsum] at hoff ⊢
  split at hoff
  · rename_i hcond
    rw [if_pos hcond, if_pos rfl]
    have : ∑ k ∈ (Finset.range N).erase a, (if k = a then t a a else t a k / ((∑ k ∈ (Finset.range N).erase a, t a k) / (1 - t a a)))
        = 1 - t a a := by
      rw [Finset.sum_congr rfl fun k hk => if_neg (Finset.ne_of_mem_erase hk), ← Finset.sum_div]
      rw [div_div_eq_mul_div, mul_comm, mul_div_assoc, div_self hcond.2.ne', mul_one]
    linarith
  · rename_i hcond
    rw [if_neg hcond]
    by_contra hge
    exact hcond ⟨by linarith, hoff⟩

end Verif.LoopTrain

namespace Verif.LoopTrain

open Verif Verif.Spec Verif.Graph Verif.Props Verif.DecodeCmd Verif.Pipeline Verif.PhoneLoop

theorem accepts_mem {F : Type} (g : Graph F) (w : List ℕ) (h : Accepts g w) : ∀ s ∈ w, ∃ i, (i, some s) ∈ g.states := by
  obtain ⟨a, b, -, -, hr⟩ := h
  have hlab : ∀ i w, emitLab g i w → ∀ s ∈ w, ∃ i, (i, some s) ∈ g.states := by
    rintro i w (⟨-, rfl⟩ | ⟨p, hp, rfl⟩) s hs
    · cases hs
    · rw [List.mem_singleton] at hs
      exact ⟨i, hs ▸ hp⟩
  induction hr with
  | stop w hw => exact hlab _ _ hw
  | step a w w' ha hw _ ih =>
    intro s hs
    rcases List.mem_append.1 hs with hs | hs
    · exact hlab _ _ hw s hs
    · exact ih s hs

theorem accepts_ne_nil {F : Type} [Field F] [LT F] (hmms : List (String × Graph F)) (E X : Graph F → ℕ)
    (hEX : ∀ p ∈ hmms, ∀ w, Accepts p.2 w → w.head? = some (E p.2) ∧ w.getLast? = some (X p.2))
    (p : String × Graph F) (hp : p ∈ hmms) (w : List ℕ) (hw : Accepts p.2 w) : w ≠ [] := by
  rintro rfl
  cases (hEX p hp [] hw).1

/-- Distinct units have distinct entry pdfs. -/
theorem entries_ne {F : Type} [LT F] [Zero F] (hmms : List (String × Graph F)) (n : ℕ) (h : Inventory hmms n) (p q : String × Graph F)
    (hp : p ∈ hmms) (hq : q ∈ hmms) (hpq : p ≠ q) (s : ℕ) (h1 : ∃ i, (i, some s) ∈ p.2.states)
    (h2 : ∃ i, (i, some s) ∈ q.2.states) : False := by
  have hnd : (hmms.flatMap fun p => p.2.states.filterMap Prod.snd).Nodup := by rw [h.pdfs]; exact List.nodup_range
  rw [List.nodup_flatMap] at hnd
  obtain ⟨i, hi⟩ := h1
  obtain ⟨j, hj⟩ := h2
  have : Std.Symm (Function.onFun List.Disjoint fun p : String × Graph F => p.2.states.filterMap Prod.snd) :=
    ⟨fun _ _ h => List.Disjoint.symm h⟩
  exact hnd.2.forall hp hq hpq (List.mem_filterMap.2 ⟨_, hi, rfl⟩) (List.mem_filterMap.2 ⟨_, hj, rfl⟩)

theorem logGraph_known (c : Compiled ℝ) (hn : Nonneg c) (n : ℕ) (hpm : c.pdfMapping = List.range n) (g : LGraph)
    (hg : logGraph c = .ok g) : g.last + 1 = n ∧ (∀ k, g.pdf k = k.1) ∧ (∀ a b, g.graph.trans a b = llog (c.trans a b)) := by
  unfold logGraph at hg
  split at hg
  · rw [hpm] at hg
    split at hg
    · cases hg
    · rename_i hne
      have hN0 : 0 < n := by
        rcases Nat.eq_zero_or_pos n with h | h
        · rw [h] at hne; exact absurd rfl hne
        · exact h
      have := Except.ok.inj hg
      subst this
      dsimp only
      rw [List.length_range]
      refine ⟨by omega, fun k => ?_, fun _ _ => rfl⟩
      have hk := k.2
      rw [List.getD_eq_getElem?_getD, List.getElem?_range (by omega)]
      rfl
  · cases hg

/-- Words of a graph whose states are its pdfs. -/
theorem spells_chain (c : Compiled ℝ) (n : ℕ) (hpm : c.pdfMapping = List.range n) (w : List ℕ) (h : Spells c w) :
    w.IsChain (fun a b => 0 < c.trans a b) := by
  obtain ⟨q, ⟨i, f, -, -, hq, -, hch, -⟩, rfl⟩ := h
  have : (q.map fun k => c.pdfMapping.getD k 0) = q := by
    conv_rhs => rw [← List.map_id q]
    refine List.map_congr_left fun k hk => ?_
    have := hq k hk
    rw [hpm, List.length_range] at this
    rw [hpm, List.getD_eq_getElem?_getD, List.getElem?_range this]
    rfl
  rw [this]
  exact hch

theorem chain_cross {α : Type} {R : α → α → Prop} (u v v' u' : List α) (h : (u ++ (v ++ (v' ++ u'))).IsChain R) (x y : α)
    (hx : v.getLast? = some x) (hy : v'.head? = some y) : R x y := by
  have h1 := (List.isChain_append.1 h).2.1
  have h2 := (List.isChain_append.1 h1).2.2
  refine h2 x hx y ?_
  rw [List.head?_append, hy]
  rfl

end Verif.LoopTrain
