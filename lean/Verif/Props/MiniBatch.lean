import Verif.Lemmas.MiniBatch
import Verif.Props.VBTrain

/-!
# C178: training on mini-batches

The statements hold for every family with the laws `Conj` of a conjugate family, where `C.N p` are the natural parameters of `p`
(`C.nat_eq`): `ngConj`, `ingConj`, `nwConj` for `Normal`, `dirConj` for `Categorical`.
-/

namespace Verif.Props

open Real Verif Verif.Dists Verif.DistSpec Verif.VB

variable {X P : Type} {fam : Family X P} {V : P → Prop} {XV : X → Prop}

/-- **C178.** Training on any batches with any learning rates in (0, 1] does not raise, keeps the posterior valid, and its natural parameters
are a mean of those of the initial posterior and of the exact posteriors of the batches. The weight of a batch is its learning rate times
what the later updates leave. -/
theorem C178_mean (C : Conj fam V XV) (prior : P) (hp : V prior) (ds : ℤ) (hds : 0 < ds) {n : ℕ} (b : Fin n → List X) (l : Fin n → ℝ)
    (hb : ∀ k, b k ≠ [] ∧ ∀ x ∈ b k, XV x) (hl : ∀ k, 0 < l k ∧ l k ≤ 1) :
    ∃ best : Fin n → P, (∀ k, ExactPosterior fam V prior (b k) ds (best k)) ∧
      ∀ q, V q → ∃ p', miniTrain fam ds ⟨prior, q⟩ (List.ofFn fun k => (b k, l k)) = .ok ⟨prior, p'⟩ ∧ V p' ∧
        ∀ i, (C.N p').getD i 0 = (∏ k, (1 - l k)) * (C.N q).getD i 0
          + ∑ k, (l k * ∏ j ∈ Finset.Ioi k, (1 - l j)) * (C.N (best k)).getD i 0 := by
  choose best h1 h2 _ _ using fun k => C.exact prior hp (b k) (hb k).1 (hb k).2 ds hds
  refine ⟨best, h1, fun q hq => ?_⟩
  obtain ⟨p', e, v, h⟩ := C.mini_trace ds b l hb hl ⟨prior, q⟩ ⟨hp, hq⟩
  refine ⟨p', e, v, fun i => ?_⟩
  rw [h]
  simp only [h2]

/-- **C178, weights.** The weights of the mean are not negative and sum to one. -/
theorem C178_weights : ∀ {n : ℕ} (l : Fin n → ℝ), (∀ k, 0 < l k ∧ l k ≤ 1) →
    0 ≤ ∏ k, (1 - l k) ∧ (∀ k, 0 ≤ l k * ∏ j ∈ Finset.Ioi k, (1 - l j)) ∧
    (∏ k, (1 - l k)) + ∑ k, (l k * ∏ j ∈ Finset.Ioi k, (1 - l j)) = 1 := by
  intro n l hl
  refine ⟨Finset.prod_nonneg fun k _ => by linarith [hl k], fun k => mul_nonneg (hl k).1.le (Finset.prod_nonneg fun j _ => by linarith [hl j]), ?_⟩
  clear hl
  induction n with
  | zero => simp
  | succ n ih =>
    rw [Fin.prod_univ_succ, Fin.sum_univ_succ, Fin.prod_Ioi_zero]
    simp only [Fin.prod_Ioi_succ]
    linarith [ih fun k => l k.succ]

/-- **C178, one pass.** When the learning rate of each update is the share of its batch in the data seen so far, one pass over the batches
gives, whatever the sizes of the batches and the initial posterior, the exact posterior of all the data: the same as one update with all
of them. -/
theorem C178_one_pass (C : Conj fam V XV) (prior : P) (hp : V prior) (ds : ℤ) (hds : 0 < ds) (bs : List (List X)) (hne : bs ≠ [])
    (hbs : ∀ b ∈ bs, b ≠ [] ∧ ∀ x ∈ b, XV x) :
    ∃ best, ExactPosterior fam V prior bs.flatten ds best ∧ ∀ q, V q →
      miniTrain fam ds ⟨prior, q⟩ (onlineRates 0 bs) = .ok ⟨prior, best⟩ ∧ miniStep fam ⟨prior, q⟩ bs.flatten ds 1 = .ok ⟨prior, best⟩ := by
  have hall : ∀ x ∈ bs.flatten, XV x := by
    intro x hx
    obtain ⟨b, hb, hx⟩ := List.mem_flatten.1 hx
    exact (hbs b hb).2 x hx
  have hfl : bs.flatten ≠ [] := by
    obtain ⟨b, hb⟩ := List.exists_mem_of_ne_nil bs hne
    intro h
    exact (hbs b hb).1 (List.flatten_eq_nil_iff.1 h b hb)
  obtain ⟨best, h1, h2, h3, h4⟩ := C.exact prior hp bs.flatten hfl hall ds hds
  refine ⟨best, h1, fun q hq => ⟨?_, h4 q hq⟩⟩
  obtain ⟨p', e, _, n, f⟩ := C.mini_online prior hp ds hds bs hbs [] (by simp) q hq (fun h => absurd rfl h)
  have hn := n (by simpa using hfl)
  rw [List.nil_append, ← h2] at hn
  have hf := f hne
  rw [hn, h3] at hf
  rw [Except.ok.inj hf]
  exact e

/-- **C178, equal batches.** With batches of the same size these learning rates are 1, 1/2, 1/3, … -/
theorem C178_harmonic (m : ℕ) (hm : 0 < m) (bs : List (List X)) (hbs : ∀ b ∈ bs, b.length = m) :
    onlineRates 0 bs = bs.mapIdx fun k b => (b, 1 / ((k : ℝ) + 1)) := by
  have key : ∀ (bs : List (List X)) (s : ℕ), (∀ b ∈ bs, b.length = m) →
      onlineRates (s * m) bs = bs.mapIdx fun k b => (b, 1 / (((s + k : ℕ) : ℝ) + 1)) := by
    intro bs
    induction bs with
    | nil => intro s _; rfl
    | cons b bs ih =>
      intro s h
      have hb := h b List.mem_cons_self
      rw [onlineRates, List.mapIdx_cons, hb, show s * m + m = (s + 1) * m by ring, ih (s + 1) fun b' hb' => h b' (List.mem_cons_of_mem _ hb')]
      have hm' : (0 : ℝ) < m := by exact_mod_cast hm
      congr 1
      · congr 1
        push_cast
        field_simp
        ring
      · congr 1
        funext k b'
        rw [show s + 1 + k = s + (k + 1) by ring]
  have := key bs 0 hbs
  rw [Nat.zero_mul] at this
  rw [this]
  simp

/-- **C178, constant learning rate.** With batches of equal sizes again and again and a constant learning rate, the posterior runs, from any
initial posterior and geometrically fast, into a cycle, whose mean over the batches is the exact posterior of all the data; each point of
the cycle is within learning rate × number of batches × spread of the exact posteriors of the batches of it. -/
theorem C178_cycle (C : Conj fam V XV) (prior : P) (hp : V prior) (ds : ℤ) (hds : 0 < ds) (bs : List (List X)) (hne : bs ≠ []) (m : ℕ)
    (hm : 0 < m) (hbs : ∀ b ∈ bs, b.length = m ∧ ∀ x ∈ b, XV x) (l : ℝ) (h0 : 0 < l) (h1 : l ≤ 1) :
    ∃ (c : ℕ → ℕ → ℝ) (best : P), ExactPosterior fam V prior bs.flatten ds best ∧
      (∀ q, V q → ∀ e j, j ≤ bs.length → ∃ p, miniTrain fam ds ⟨prior, q⟩ (cycles e (bs.map fun b => (b, l)) ++ (bs.map fun b => (b, l)).take j)
          = .ok ⟨prior, p⟩ ∧ V p ∧ ∀ i, (C.N p).getD i 0 - c j i = (1 - l) ^ (bs.length * e + j) * ((C.N q).getD i 0 - c 0 i)) ∧
      (∀ i, c bs.length i = c 0 i) ∧
      (∀ i, (∑ j ∈ Finset.range bs.length, c j i) / bs.length = (C.N best).getD i 0) ∧
      ∀ i lo hi, (∀ b ∈ bs, ∀ p, ExactPosterior fam V prior b ds p → miniStep fam ⟨prior, prior⟩ b ds 1 = .ok ⟨prior, p⟩ →
          lo ≤ (C.N p).getD i 0 ∧ (C.N p).getD i 0 ≤ hi) →
        ∀ j ≤ bs.length, |c j i - (C.N best).getD i 0| ≤ l * bs.length * (hi - lo) := by
  have hbs' : ∀ b ∈ bs, b ≠ [] ∧ ∀ x ∈ b, XV x := fun b hb => ⟨by
    intro h
    have := (hbs b hb).1
    rw [h] at this
    simp at this
    omega, (hbs b hb).2⟩
  have hall : ∀ x ∈ bs.flatten, XV x := by
    intro x hx
    obtain ⟨b, hb, hx⟩ := List.mem_flatten.1 hx
    exact (hbs b hb).2 x hx
  have hfl : bs.flatten ≠ [] := by
    obtain ⟨b, hb⟩ := List.exists_mem_of_ne_nil bs hne
    intro h
    exact (hbs' b hb).1 (List.flatten_eq_nil_iff.1 h b hb)
  let gs : ℕ → List ℝ := fun i => bs.map fun b => (C.goal prior b (miniScale b.length ds)).getD i 0
  have hgl : ∀ i, (gs i).length = bs.length := fun i => by simp [gs]
  have hgne : ∀ i, gs i ≠ [] := fun i => by simpa [gs] using hne
  choose c0 hc0 using fun i => relax_fixed h0 h1 (gs i) (hgne i)
  obtain ⟨best, b1, b2, b3, b4⟩ := C.exact prior hp bs.flatten hfl hall ds hds
  have hB : (0 : ℝ) < bs.length := by exact_mod_cast List.length_pos_of_ne_nil hne
  have hlen : bs.flatten.length = bs.length * m := by
    rw [List.length_flatten, List.map_congr_left (fun b hb => (hbs b hb).1), List.map_const', List.sum_replicate, smul_eq_mul]
  have hm' : (0 : ℝ) < m := by exact_mod_cast hm
  have hmean : ∀ i, (∑ j ∈ Finset.range bs.length, relax l (c0 i) ((gs i).take j)) = bs.length * (C.N best).getD i 0 := by
    intro i
    have h2 := relax_sum l (c0 i) (gs i)
    rw [hc0, hgl] at h2
    have h3 : (gs i).sum = ∑ j ∈ Finset.range bs.length, relax l (c0 i) ((gs i).take j) := by
      have h4 : l * ((gs i).sum - ∑ j ∈ Finset.range bs.length, relax l (c0 i) ((gs i).take j)) = 0 := by linarith
      rcases mul_eq_zero.1 h4 with h5 | h5
      · exact absurd h5 h0.ne'
      · linarith
    rw [← h3, b2, C.goal_coord _ hp _ hall]
    have h5 : gs i = bs.map fun b => (C.N prior).getD i 0 + (ds : ℝ) / m * (b.map fun x => (fam.stats x).getD i 0).sum := by
      refine List.map_congr_left fun b hb => ?_
      rw [C.goal_coord _ hp _ (hbs b hb).2, (hbs b hb).1]
      unfold miniScale
      rw [if_neg (not_le.2 hds)]
    rw [h5, List.sum_map_add, List.map_const', List.sum_replicate, nsmul_eq_mul, List.sum_map_mul_left, List.map_flatten, List.sum_flatten,
      List.map_map]
    unfold miniScale
    rw [if_neg (not_le.2 hds), hlen]
    push_cast
    have : (bs.map (List.sum ∘ List.map fun x => (fam.stats x).getD i 0)) = bs.map fun b => (b.map fun x => (fam.stats x).getD i 0).sum := rfl
    rw [this]
    field_simp
  refine ⟨fun j i => relax l (c0 i) ((gs i).take j), best, b1, fun q hq e j hj => ?_, fun i => ?_, fun i => ?_, fun i lo hi hlh j hj => ?_⟩
  · have hlist : cycles e (bs.map fun b => (b, l)) ++ (bs.map fun b => (b, l)).take j
        = ((List.replicate e bs).flatten ++ bs.take j).map fun b => (b, l) := by
      unfold cycles
      rw [List.map_append, List.map_take, List.map_flatten, List.map_replicate]
    have hmem : ∀ b ∈ (List.replicate e bs).flatten ++ bs.take j, b ∈ bs := by
      intro b hb
      rcases List.mem_append.1 hb with h | h
      · obtain ⟨l', hl', hb'⟩ := List.mem_flatten.1 h
        rw [List.eq_of_mem_replicate hl'] at hb'
        exact hb'
      · exact List.mem_of_mem_take h
    obtain ⟨p, e1, v1, n1⟩ := C.mini_const ds l h0 h1 ((List.replicate e bs).flatten ++ bs.take j) (fun b hb => hbs' b (hmem b hb)) ⟨prior, q⟩ ⟨hp, hq⟩
    refine ⟨p, by rw [hlist]; exact e1, v1, fun i => ?_⟩
    rw [n1, List.map_append, List.map_take, List.map_flatten, List.map_replicate]
    show relax l ((C.N q).getD i 0) ((List.replicate e (gs i)).flatten ++ (gs i).take j) - relax l (c0 i) ((gs i).take j)
      = _ * ((C.N q).getD i 0 - relax l (c0 i) [])
    rw [relax_append, relax_sub, relax_cycles l (c0 i) _ _ (hc0 i), List.length_take, hgl, min_eq_left hj, pow_add]
    show _ = _ * ((C.N q).getD i 0 - c0 i)
    ring
  · show relax l (c0 i) ((gs i).take bs.length) = c0 i
    rw [← hgl i, List.take_length, hc0]
  · rw [hmean, mul_div_assoc, mul_comm, div_mul_cancel₀ _ hB.ne']
  · have hg : ∀ g ∈ gs i, lo ≤ g ∧ g ≤ hi := by
      intro g hg
      obtain ⟨b, hb, rfl⟩ := List.mem_map.1 hg
      obtain ⟨p, p1, p2, _, p4⟩ := C.exact prior hp b (hbs' b hb).1 (hbs' b hb).2 ds hds
      have := hlh b hb p p1 (p4 prior hp)
      rwa [p2] at this
    have hb0 := relax_fixed_bounds h0 h1 (gs i) (hgne i) hg (c0 i) (hc0 i)
    have hd : 0 ≤ hi - lo := by linarith
    have hdiff : ∀ k j, k ≤ j → j ≤ bs.length → |relax l (c0 i) ((gs i).take j) - relax l (c0 i) ((gs i).take k)| ≤ bs.length * (l * (hi - lo)) := by
      intro k j hkj hj
      have h2 : (gs i).take j = (gs i).take k ++ ((gs i).take j).drop k := by
        have h3 := List.take_append_drop k ((gs i).take j)
        rw [List.take_take, min_eq_left hkj] at h3
        exact h3.symm
      have hin := relax_bounds h0.le h1 ((gs i).take k) (fun g hg' => hg g (List.mem_of_mem_take hg')) (c0 i) hb0
      have := relax_drift h0.le h1 (((gs i).take j).drop k) (fun g hg' => hg g (List.mem_of_mem_take (List.mem_of_mem_drop hg'))) _ hin
      rw [h2, relax_append]
      refine this.trans (mul_le_mul_of_nonneg_right ?_ (mul_nonneg h0.le hd))
      rw [List.length_drop, List.length_take, hgl]
      exact_mod_cast (by omega : min j bs.length - k ≤ bs.length)
    have hdiff' : ∀ k, k ≤ bs.length → |relax l (c0 i) ((gs i).take j) - relax l (c0 i) ((gs i).take k)| ≤ bs.length * (l * (hi - lo)) := by
      intro k hk
      rcases le_total k j with h | h
      · exact hdiff k j h hj
      · rw [abs_sub_comm]
        exact hdiff j k h hk
    have hsum : bs.length * (relax l (c0 i) ((gs i).take j) - (C.N best).getD i 0)
        = ∑ k ∈ Finset.range bs.length, (relax l (c0 i) ((gs i).take j) - relax l (c0 i) ((gs i).take k)) := by
      rw [Finset.sum_sub_distrib, hmean, Finset.sum_const, Finset.card_range, nsmul_eq_mul]
      ring
    have h6 : |(bs.length : ℝ) * (relax l (c0 i) ((gs i).take j) - (C.N best).getD i 0)| ≤ bs.length * (bs.length * (l * (hi - lo))) := by
      rw [hsum]
      refine (Finset.abs_sum_le_sum_abs _ _).trans ?_
      refine (Finset.sum_le_sum fun k hk => hdiff' k (Finset.mem_range.1 hk).le).trans ?_
      rw [Finset.sum_const, Finset.card_range, nsmul_eq_mul]
    rw [abs_mul, abs_of_pos hB] at h6
    have := le_of_mul_le_mul_left h6 hB
    linarith

/-- **C178, last batch.** An update of learning rate one forgets all the batches before it. -/
theorem C178_last_batch (C : Conj fam V XV) (prior : P) (hp : V prior) (ds : ℤ) (hds : 0 < ds) (before : List (List X × ℝ))
    (hbe : ∀ r ∈ before, (r.1 ≠ [] ∧ ∀ x ∈ r.1, XV x) ∧ 0 < r.2 ∧ r.2 ≤ 1) (b : List X) (hne : b ≠ []) (hb : ∀ x ∈ b, XV x) :
    ∃ best, ExactPosterior fam V prior b ds best ∧ ∀ q, V q → miniTrain fam ds ⟨prior, q⟩ (before ++ [(b, 1)]) = .ok ⟨prior, best⟩ := by
  obtain ⟨best, h1, _, _, h4⟩ := C.exact prior hp b hne hb ds hds
  refine ⟨best, h1, fun q hq => ?_⟩
  induction before generalizing q with
  | nil =>
    show (miniStep fam _ b ds 1 >>= _) = _
    rw [h4 q hq]
    rfl
  | cons r before ih =>
    obtain ⟨r, l⟩ := r
    have hr := hbe _ List.mem_cons_self
    obtain ⟨p1, e1, v1, _⟩ := C.mini_step ⟨prior, q⟩ ⟨hp, hq⟩ r hr.1.1 hr.1.2 ds l hr.2.1 hr.2.2
    show (miniStep fam _ r ds l >>= _) = _
    rw [e1]
    exact ih (fun r hr => hbe r (List.mem_cons_of_mem _ hr)) p1 v1

/-- An empty batch raises. -/
theorem C178_empty_batch (fam : Family X P) (c : CParam P) (ds : ℤ) (l : ℝ) : miniStep fam c [] ds l = .error .zeroDivision := rfl

/-- **C178, value.** The value reported for a batch is the objective of the batch as a sample of `datasize` frames; the mean of the values of the
batches, weighted by their sizes, is the value for all their data. -/
theorem C178_value (C : Conj fam V XV) (c : CParam P) (hc : ParamValid V c) (ds : ℤ) (hds : 0 < ds) (bs : List (List X)) (hne : bs ≠ [])
    (hbs : ∀ b ∈ bs, b ≠ [] ∧ ∀ x ∈ b, XV x) :
    ∃ (v : List X → ℝ) (all : ℝ),
      (∀ b ∈ bs, miniElbo fam c b ds = .ok (v b) ∧ paramObjective fam c (b.map fun x => (1, x)) ((ds : ℝ) / b.length) = .ok (v b)) ∧
      miniElbo fam c bs.flatten ds = .ok all ∧
      (bs.map fun b => (b.length : ℝ) * v b).sum / bs.flatten.length = all := by
  set f : X → ℝ := fun x => vdot (C.T c.post) (fam.stats x) + C.base with hf
  have hval : ∀ b : List X, b ≠ [] → (∀ x ∈ b, XV x) →
      miniElbo fam c b ds = .ok ((ds : ℝ) / b.length * (b.map f).sum - C.D c.post c.prior) ∧
      paramObjective fam c (b.map fun x => (1, x)) ((ds : ℝ) / b.length) = .ok ((ds : ℝ) / b.length * (b.map f).sum - C.D c.post c.prior) := by
    intro b hb hx
    constructor
    · unfold miniElbo
      rw [batchScale_mini hb, mapM_ok_map _ _ b (fun x h => C.llh_eq c x hc.2 (hx x h)), C.paramKl_eq c hc]
      unfold miniScale
      rw [if_neg (by omega)]
      rfl
    · unfold paramObjective
      rw [mapM_ok_map _ (fun r => f r.2) (b.map fun x => ((1 : ℝ), x)) (fun r h => by
        obtain ⟨x, hx', rfl⟩ := List.mem_map.1 h
        exact C.llh_eq c x hc.2 (hx x hx')), C.paramKl_eq c hc]
      show Except.ok _ = Except.ok _
      congr 3
      rw [List.map_map, List.zipWith_map]
      simp only [Function.comp_def, one_mul]
      rw [List.zipWith_self]
  have hall : ∀ x ∈ bs.flatten, XV x := by
    intro x hx
    obtain ⟨b, hb, hx⟩ := List.mem_flatten.1 hx
    exact (hbs b hb).2 x hx
  have hfne : bs.flatten ≠ [] := by
    obtain ⟨b, hb⟩ := List.exists_mem_of_ne_nil bs hne
    obtain ⟨x, hx⟩ := List.exists_mem_of_ne_nil b (hbs b hb).1
    exact List.ne_nil_of_mem (List.mem_flatten.2 ⟨b, hb, hx⟩)
  refine ⟨fun b => (ds : ℝ) / b.length * (b.map f).sum - C.D c.post c.prior, _, fun b hb => hval b (hbs b hb).1 (hbs b hb).2, (hval _ hfne hall).1, ?_⟩
  have key : ∀ l : List (List X), (∀ b ∈ l, b ≠ []) →
      (l.map fun b => (b.length : ℝ) * ((ds : ℝ) / b.length * (b.map f).sum - C.D c.post c.prior)).sum
        = ds * (l.flatten.map f).sum - l.flatten.length * C.D c.post c.prior := by
    intro l
    induction l with
    | nil => intro _; simp
    | cons b l ih =>
      intro h
      rw [List.map_cons, List.sum_cons, ih fun b hb => h b (List.mem_cons_of_mem _ hb), List.flatten_cons, List.map_append, List.sum_append,
        List.length_append]
      have : (b.length : ℝ) ≠ 0 := by
        have := h b List.mem_cons_self
        simpa using this
      push_cast
      field_simp
      ring
  have h0 : (bs.flatten.length : ℝ) ≠ 0 := by
    have := hfne
    rwa [Ne, Nat.cast_eq_zero, List.length_eq_zero_iff]
  rw [key bs fun b hb => (hbs b hb).1]
  field_simp

/-! ## Coins -/

theorem tosses_valid (data : List (List ℝ)) (h : ∀ x ∈ data, x = [1, 0] ∨ x = [0, 1]) : ∀ x ∈ data, CountsValid 2 x := by
  intro x hx
  rcases h x hx with rfl | rfl <;> exact ⟨rfl, by simp⟩

theorem tosses_step (q : List ℝ) (hq : DirValid 2 q) (b : List (List ℝ)) (hne : b ≠ []) (hb : ∀ x ∈ b, x = [1, 0] ∨ x = [0, 1]) (ds : ℤ) (l : ℝ) :
    miniStep (dirFam 2) ⟨[1, 1], q⟩ b ds l
      = (dirFam 2).update ⟨[1, 1], q⟩ (vsmul (miniScale b.length ds) (wsum 2 (b.map fun x => (1, catStats x)))) l := by
  obtain ⟨w, hw⟩ := (dirConj (D := 2) (by norm_num)).miniElbo_ok ⟨[1, 1], q⟩ ⟨⟨rfl, by simp⟩, hq⟩ b hne (tosses_valid b hb) ds
  unfold miniStep
  rw [hw, batchScale_mini hne]
  rfl

/-- **C178 (negation), learning rate one.** The default learning rate on batches does not give the exact posterior: after a head and a tail,
one per batch, the posterior is that of two tails. -/
theorem C178_rate_one : miniTrain (dirFam 2) 2 ⟨[1, 1], [1, 1]⟩ [([[1, 0]], 1), ([[0, 1]], 1)] = .ok ⟨[1, 1], [1, 3]⟩ ∧
    miniStep (dirFam 2) ⟨[1, 1], [1, 1]⟩ [[1, 0], [0, 1]] 2 1 = .ok ⟨[1, 1], [2, 2]⟩ := by
  have h1 : miniStep (dirFam 2) ⟨[1, 1], [1, 1]⟩ [[1, 0]] 2 1 = .ok ⟨[1, 1], [3, 1]⟩ := by
    rw [tosses_step _ ⟨rfl, by simp⟩ _ (by simp) (by simp)]
    simp [Family.update, dirFam, wsum, vadd, vsub, vsmul, dirNatural, dirFromNatural, catStats, bind, Except.bind, miniScale]
    norm_num
  have h2 : miniStep (dirFam 2) ⟨[1, 1], [3, 1]⟩ [[0, 1]] 2 1 = .ok ⟨[1, 1], [1, 3]⟩ := by
    rw [tosses_step _ ⟨rfl, by simp⟩ _ (by simp) (by simp)]
    simp [Family.update, dirFam, wsum, vadd, vsub, vsmul, dirNatural, dirFromNatural, catStats, bind, Except.bind, miniScale]
    norm_num
  constructor
  · rw [miniTrain, h1]
    show miniTrain _ _ _ _ = _
    rw [miniTrain, h2]
    rfl
  · rw [tosses_step _ ⟨rfl, by simp⟩ _ (by simp) (by simp)]
    simp [Family.update, dirFam, wsum, vadd, vsub, vsmul, dirNatural, dirFromNatural, catStats, bind, Except.bind, miniScale]
    norm_num

/-- **C178 (negation), unequal batches.** The learning rates 1, 1/2, … count batches, not frames: with a batch of one head and one of two tails
they do not give the exact posterior, while the shares 1, 2/3 do. -/
theorem C178_unequal : miniTrain (dirFam 2) 3 ⟨[1, 1], [1, 1]⟩ [([[1, 0]], 1), ([[0, 1], [0, 1]], 1 / 2)] = .ok ⟨[1, 1], [5 / 2, 5 / 2]⟩ ∧
    miniTrain (dirFam 2) 3 ⟨[1, 1], [1, 1]⟩ [([[1, 0]], 1), ([[0, 1], [0, 1]], 2 / 3)] = .ok ⟨[1, 1], [2, 3]⟩ ∧
    miniStep (dirFam 2) ⟨[1, 1], [1, 1]⟩ [[1, 0], [0, 1], [0, 1]] 3 1 = .ok ⟨[1, 1], [2, 3]⟩ := by
  have h1 : miniStep (dirFam 2) ⟨[1, 1], [1, 1]⟩ [[1, 0]] 3 1 = .ok ⟨[1, 1], [4, 1]⟩ := by
    rw [tosses_step _ ⟨rfl, by simp⟩ _ (by simp) (by simp)]
    simp [Family.update, dirFam, wsum, vadd, vsub, vsmul, dirNatural, dirFromNatural, catStats, bind, Except.bind, miniScale]
    norm_num
  have h2 : ∀ l : ℝ, miniStep (dirFam 2) ⟨[1, 1], [4, 1]⟩ [[0, 1], [0, 1]] 3 l = .ok ⟨[1, 1], [4 - 3 * l, 1 + 3 * l]⟩ := by
    intro l
    rw [tosses_step _ ⟨rfl, by simp⟩ _ (by simp) (by simp)]
    simp [Family.update, dirFam, wsum, vadd, vsub, vsmul, dirNatural, dirFromNatural, catStats, bind, Except.bind, miniScale]
    norm_num
    constructor <;> ring
  refine ⟨?_, ?_, ?_⟩
  · rw [miniTrain, h1]
    show miniTrain _ _ _ _ = _
    rw [miniTrain, h2]
    norm_num [miniTrain, bind, Except.bind]
  · rw [miniTrain, h1]
    show miniTrain _ _ _ _ = _
    rw [miniTrain, h2]
    norm_num [miniTrain, bind, Except.bind]
  · rw [tosses_step _ ⟨rfl, by simp⟩ _ (by simp) (by simp)]
    simp [Family.update, dirFam, wsum, vadd, vsub, vsmul, dirNatural, dirFromNatural, catStats, bind, Except.bind, miniScale]
    norm_num

/-! ## The hypotheses can be met -/

-- three coins in batches of sizes 1 and 2, the learning rates 1 and 2/3
example : onlineRates 0 ([[[1, 0]], [[0, 1], [0, 1]]] : List (List (List ℝ))) = [([[1, 0]], 1), ([[0, 1], [0, 1]], 2 / 3)] := by
  norm_num [onlineRates]

example : ∃ best, ExactPosterior (dirFam 2) (DirValid 2) [1, 1] [[1, 0], [0, 1], [0, 1]] 3 best ∧ ∀ q, DirValid 2 q →
    miniTrain (dirFam 2) 3 ⟨[1, 1], q⟩ (onlineRates 0 [[[1, 0]], [[0, 1], [0, 1]]]) = .ok ⟨[1, 1], best⟩ ∧
    miniStep (dirFam 2) ⟨[1, 1], q⟩ [[1, 0], [0, 1], [0, 1]] 3 1 = .ok ⟨[1, 1], best⟩ :=
  C178_one_pass (dirConj (by norm_num)) [1, 1] ⟨rfl, by simp⟩ 3 (by norm_num) [[[1, 0]], [[0, 1], [0, 1]]] (by simp)
    (fun b hb => ⟨by rintro rfl; simp at hb, tosses_valid b (by fin_cases hb <;> simp)⟩)

-- a head, then two tails
example : ∃ (v : List (List ℝ) → ℝ) (all : ℝ), miniElbo (dirFam 2) ⟨[1, 1], [2, 1]⟩ [[1, 0]] 3 = .ok (v [[1, 0]]) ∧
    miniElbo (dirFam 2) ⟨[1, 1], [2, 1]⟩ [[0, 1], [0, 1]] 3 = .ok (v [[0, 1], [0, 1]]) ∧
    miniElbo (dirFam 2) ⟨[1, 1], [2, 1]⟩ [[1, 0], [0, 1], [0, 1]] 3 = .ok all ∧ (v [[1, 0]] + 2 * v [[0, 1], [0, 1]]) / 3 = all := by
  obtain ⟨v, all, h1, h2, h3⟩ := C178_value (dirConj (D := 2) (by norm_num)) ⟨[1, 1], [2, 1]⟩ ⟨⟨rfl, by simp⟩, ⟨rfl, by simp⟩⟩ 3 (by norm_num)
    [[[1, 0]], [[0, 1], [0, 1]]] (by simp) (fun b hb => ⟨by rintro rfl; simp at hb, tosses_valid b (by fin_cases hb <;> simp)⟩)
  refine ⟨v, all, (h1 _ (by simp)).1, (h1 _ (by simp)).1, h2, ?_⟩
  rw [← h3]
  simp

-- a Normal of two dimensions, two batches
example : ∃ best : Fin 2 → NG ℝ, (∀ k, ExactPosterior (ngFam 2) (NGValid 2) ⟨[0, 0], 1, 1, [1, 1]⟩ (![[[1, 2]], [[3, 4], [5, 6]]] k) 3 (best k)) ∧
    ∀ q, NGValid 2 q → ∃ p', miniTrain (ngFam 2) 3 ⟨⟨[0, 0], 1, 1, [1, 1]⟩, q⟩
        (List.ofFn fun k : Fin 2 => ((![[[1, 2]], [[3, 4], [5, 6]]] : Fin 2 → List (List ℝ)) k, (1 / 2 : ℝ))) = .ok ⟨⟨[0, 0], 1, 1, [1, 1]⟩, p'⟩ ∧
      NGValid 2 p' := by
  have hb : ∀ k : Fin 2, (![[[1, 2]], [[3, 4], [5, 6]]] : Fin 2 → List (List ℝ)) k ≠ [] ∧
      ∀ x ∈ (![[[1, 2]], [[3, 4], [5, 6]]] : Fin 2 → List (List ℝ)) k, x.length = 2 := by
    intro k
    fin_cases k <;> simp
  obtain ⟨best, h1, h2⟩ := C178_mean (ngConj (D := 2) (by norm_num)) ⟨[0, 0], 1, 1, [1, 1]⟩ ⟨rfl, rfl, by norm_num, by norm_num, by simp⟩ 3 (by norm_num)
    ![[[1, 2]], [[3, 4], [5, 6]]] (fun _ => 1 / 2) hb (fun _ => by norm_num)
  exact ⟨best, h1, fun q hq => let ⟨p', e, v, _⟩ := h2 q hq; ⟨p', e, v⟩⟩

-- the weights of three updates of learning rate 1/2
example : ((∏ _k : Fin 3, (1 - 1 / 2 : ℝ)) + ∑ k : Fin 3, (1 / 2 * ∏ _j ∈ Finset.Ioi k, (1 - 1 / 2 : ℝ))) = 1 :=
  (C178_weights (fun _ : Fin 3 => (1 / 2 : ℝ)) (fun _ => by norm_num)).2.2

-- a head and a tail, again and again, learning rate 1/2
example : ∃ (c : ℕ → ℕ → ℝ) (best : List ℝ), ExactPosterior (dirFam 2) (DirValid 2) [1, 1] [[1, 0], [0, 1]] 2 best ∧
    (∀ i, (c 0 i + c 1 i) / 2 = (dirNatural best).getD i 0) := by
  obtain ⟨c, best, h1, _, _, h2, _⟩ := C178_cycle (dirConj (D := 2) (by norm_num)) [1, 1] ⟨rfl, by simp⟩ 2 (by norm_num) [[[1, 0]], [[0, 1]]] (by simp) 1
    one_pos (fun b hb => ⟨by fin_cases hb <;> simp, tosses_valid b (by fin_cases hb <;> simp)⟩) (1 / 2) (by norm_num) (by norm_num)
  refine ⟨c, best, by simpa using h1, fun i => ?_⟩
  have := h2 i
  simp [Finset.sum_range_succ] at this
  exact this

example : ∃ best, ExactPosterior (dirFam 2) (DirValid 2) [1, 1] [[0, 1]] 2 best ∧ ∀ q, DirValid 2 q →
    miniTrain (dirFam 2) 2 ⟨[1, 1], q⟩ [([[1, 0]], 1 / 3), ([[0, 1]], 1)] = .ok ⟨[1, 1], best⟩ := by
  have := C178_last_batch (dirConj (D := 2) (by norm_num)) [1, 1] ⟨rfl, by simp⟩ 2 (by norm_num) [([[1, 0]], 1 / 3)]
    (fun r hr => by
      rw [List.mem_singleton] at hr
      subst hr
      exact ⟨⟨by simp, tosses_valid _ (by simp)⟩, by norm_num⟩) [[0, 1]] (by simp) (tosses_valid _ (by simp))
  simpa using this

example : onlineRates 0 [[(0 : ℕ), 1], [2, 3], [4, 5]] = [([0, 1], 1), ([2, 3], 1 / 2), ([4, 5], 1 / 3)] := by
  rw [C178_harmonic 2 (by norm_num) _ (by simp)]
  norm_num [List.mapIdx_cons]

end Verif.Props
