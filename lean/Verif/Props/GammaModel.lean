import Verif.Lemmas.GammaModel

/-!
# C164 — the Gamma model
-/

namespace Verif.Props

open Verif Dists DistSpec GammaModel

/-- C164, what holds: a Gamma model created with a mean, a shape and a strength, all positive, has the mean which was asked for,
the expectation of its rate is the shape over the mean, and its prior, which is its posterior, has valid parameters.  Missing
for the property: the model cannot be trained (`C164_no_objective`, `C164_update`). -/
theorem C164_create_partial (mean shape : List ℝ) (strength : ℝ) (hl : shape.length = mean.length)
    (hm : ∀ x ∈ mean, 0 < x) (hs : ∀ x ∈ shape, 0 < x) (hst : 0 < strength) :
    ∃ m, create mean shape strength = .ok m ∧ m.mean = .ok mean ∧ m.shape = shape ∧ m.prior = m.post ∧
      GamValid mean.length m.prior ∧
      (∀ i < mean.length, m.prior.shape.getD i 0 = strength ∧
        m.prior.shape.getD i 0 / m.prior.rate.getD i 0 = shape.getD i 0 / mean.getD i 0) := by
  have e1 := vdiv_ok shape mean hl (not_zero_mem hm)
  have p1 := quot_pos shape mean hs hm
  set r := List.zipWith (· / ·) shape mean with hr
  have rl : r.length = mean.length := by simp [hr, hl]
  have e2 := vdiv_ok (r.map fun _ => strength) r (by simp) (not_zero_mem p1)
  have pc : ∀ x ∈ r.map fun _ => strength, 0 < x := by
    intro x hx
    obtain ⟨_, _, rfl⟩ := List.mem_map.1 hx
    exact hst
  have p2 := quot_pos (r.map fun _ => strength) r pc p1
  set q := List.zipWith (· / ·) (r.map fun _ => strength) r with hq
  have ql : q.length = mean.length := by simp [hq, rl]
  have hst0 : strength ≠ 0 := hst.ne'
  have gs : ∀ i < mean.length, (r.map fun _ => strength).getD i 0 = strength := by
    intro i hi
    simp [List.getD_eq_getElem?_getD, rl ▸ hi]
  have gs1 : ∀ i < mean.length, (r.map fun _ => 1 * strength).getD i 0 = strength := by
    simpa using gs
  have gq : ∀ i < mean.length, q.getD i 0 = strength / r.getD i 0 := by
    intro i hi
    rw [hq, getD_quot _ _ (by simp), gs i hi]
  have rp : ∀ i < mean.length, 0 < r.getD i 0 := by
    intro i hi
    rw [List.getD_eq_getElem _ _ (by omega)]
    exact p1 _ (List.getElem_mem _)
  have gr : ∀ i, r.getD i 0 = shape.getD i 0 / mean.getD i 0 := fun i => by rw [hr, getD_quot _ _ hl]
  refine ⟨⟨shape, ⟨r.map fun _ => 1 * strength, q⟩, ⟨r.map fun _ => 1 * strength, q⟩⟩, ?_, ?_, rfl, rfl, ?_, ?_⟩
  · simp only [create, defaultParam, e1, e2]
  · simp only [Model.mean]
    have e3 := vdiv_ok (r.map fun _ => 1 * strength) q (by simp [rl, ql]) (not_zero_mem p2)
    rw [e3]
    dsimp only
    have e4 : List.zipWith (· / ·) (r.map fun _ => 1 * strength) q = r := by
      apply ext_getD
      · simp [ql, rl]
      · intro i hi
        have hi' : i < mean.length := by simpa [ql, rl] using hi
        rw [getD_quot _ _ (by simp [rl, ql]), gs1 i hi', gq i hi']
        have := (rp i hi').ne'
        field_simp
    rw [e4, vdiv_ok _ _ (by rw [hl, rl]) (not_zero_mem p1)]
    congr 1
    apply ext_getD
    · simp [rl, hl]
    · intro i hi
      have hi' : i < mean.length := by simpa [rl, hl] using hi
      rw [getD_quot _ _ (by rw [hl, rl]), gr]
      have h1 : 0 < shape.getD i 0 := by
        rw [List.getD_eq_getElem _ _ (by omega)]
        exact hs _ (List.getElem_mem _)
      have h2 : 0 < mean.getD i 0 := by
        rw [List.getD_eq_getElem _ _ (by omega)]
        exact hm _ (List.getElem_mem _)
      field_simp
  · refine ⟨by simp [rl], ql, ?_, p2⟩
    simpa using pc
  · intro i hi
    refine ⟨gs1 i hi, ?_⟩
    dsimp only
    rw [gs1 i hi, gq i hi, gr]
    have h3 := (rp i hi).ne'
    rw [gr] at h3
    field_simp

/-- C164: means and shapes of different sizes are refused, and so are a zero mean and a zero shape. -/
theorem C164_create_errors (mean shape : List ℝ) (strength : ℝ) :
    (shape.length ≠ mean.length → create mean shape strength = .error .runtimeError) ∧
    (shape.length = mean.length → (0 : ℝ) ∈ mean → create mean shape strength = .error .valueError) ∧
    (shape.length = mean.length → (0 : ℝ) ∉ mean → (0 : ℝ) ∈ shape →
      create mean shape strength = .error .valueError) := by
  refine ⟨fun h => by simp [create, vdiv, h], fun h h0 => by simp [create, vdiv, h, h0], fun h h0 h1 => ?_⟩
  have : (0 : ℝ) ∈ List.zipWith (· / ·) shape mean := by
    obtain ⟨i, hi, e⟩ := List.getElem_of_mem h1
    rw [List.mem_iff_getElem]
    exact ⟨i, by simp [h ▸ hi, hi], by simp [e]⟩
  unfold create
  rw [vdiv_ok _ _ h h0]
  simp [defaultParam, vdiv, this]

/-- C164, the negation: the evidence lower bound of a Gamma model can never be computed, whatever the data: their statistics
have one value more than the natural parameters. -/
theorem C164_no_objective (m : Model) (data : List (List ℝ)) (hm : m.post.shape.length = m.post.rate.length)
    (hd : ∀ x ∈ data, x.length = m.post.shape.length) :
    (data ≠ [] → m.objective data = .error .runtimeError) ∧ (data = [] → m.objective data = .error .zeroDivision) := by
  refine ⟨fun h => ?_, fun h => by simp [Model.objective, h]⟩
  obtain ⟨x, rest, rfl⟩ := List.exists_cons_of_ne_nil h
  have hx := hd x (by simp)
  have hc : gamCall (gamExpStats m.post) (gamStats x) = .error .runtimeError := by
    have : (gamStats x).length ≠ (gamExpStats m.post).length := by
      rw [length_gamExpStats _ hm]
      simp [gamStats, hx]
      omega
    simp [gamCall, llhDot, this]
  simp only [Model.objective, Model.expLlh]
  rw [if_neg (by simp)]
  split_ifs
  · rw [List.map_cons, List.mapM_cons, hc]
    rfl
  · rfl

/-- C164, the negation: the update of a Gamma model takes the data away from the rate, where it should add them.  (The shapes
are as they should be.) -/
theorem C164_update (D : ℕ) (m : Model) (data : List (List ℝ)) (lrate : ℝ) (hs : m.shape.length = D)
    (h1 : m.prior.shape.length = D) (h2 : m.prior.rate.length = D) (h3 : m.post.shape.length = D)
    (h4 : m.post.rate.length = D) (hd : ∀ x ∈ data, x.length = D) :
    ∃ p, m.update data lrate = .ok { m with post := p } ∧ p.shape.length = D ∧ p.rate.length = D ∧ ∀ i < D,
      p.shape.getD i 0 = (1 - lrate) * m.post.shape.getD i 0 +
        lrate * (m.prior.shape.getD i 0 + data.length * m.shape.getD i 0) ∧
      p.rate.getD i 0 = (1 - lrate) * m.post.rate.getD i 0 +
        lrate * (m.prior.rate.getD i 0 - (data.map fun x => x.getD i 0).sum) := by
  have ea : m.accumulate data =
      wsum D (data.map fun x => (1, x)) ++ wsum D (data.map fun _ => ((1 : ℝ), m.shape)) := by
    rw [← wsum_append D m.shape hs data hd, Model.accumulate, hs]
    congr 1
    apply List.map_congr_left
    intro x hx
    rw [gamModelStats_eq _ _ _ (by rw [hd x hx, hs]) (by simp)]
  have a1 : ∀ r ∈ data.map fun x => ((1 : ℝ), x), r.2.length = D := by
    intro r hr
    obtain ⟨x, hx, rfl⟩ := List.mem_map.1 hr
    exact hd x hx
  have a2 : ∀ r ∈ data.map fun _ => ((1 : ℝ), m.shape), r.2.length = D := by
    intro r hr
    obtain ⟨x, hx, rfl⟩ := List.mem_map.1 hr
    exact hs
  obtain ⟨p, e, l1, l2, g1, g2⟩ := gam_update_eq D m.prior m.post _ _ lrate h1 h2 h3 h4
    (length_wsum D _ a1) (length_wsum D _ a2)
  refine ⟨p, by simp only [Model.update, ea, e], l1, l2, fun i hi => ⟨?_, ?_⟩⟩
  · rw [g1 i hi, getD_wsum D _ a2]
    simp [Function.comp_def]
  · rw [g2 i hi, getD_wsum D _ a1]
    simp [Function.comp_def]

/-- C164, the negation: as soon as the data of one dimension sum to the rate of the prior or more, the posterior after a full
step is not a Gamma distribution any more. -/
theorem C164_invalid (D : ℕ) (m m' : Model) (data : List (List ℝ)) (hs : m.shape.length = D)
    (hp : GamValid D m.prior) (hq : GamValid D m.post) (hd : ∀ x ∈ data, x.length = D) (hu : m.update data 1 = .ok m') :
    GamValid D m'.post ↔
      (∀ i < D, (data.map fun x => x.getD i 0).sum < m.prior.rate.getD i 0) ∧
      ∀ i < D, 0 < m.prior.shape.getD i 0 + data.length * m.shape.getD i 0 := by
  obtain ⟨p1, p2, p3, p4⟩ := hp
  obtain ⟨q1, q2, q3, q4⟩ := hq
  obtain ⟨p, e, l1, l2, g⟩ := C164_update D m data 1 hs p1 p2 q1 q2 hd
  have : m' = { m with post := p } := Except.ok.inj (hu.symm.trans e)
  subst this
  have pos : ∀ l : List ℝ, l.length = D → ((∀ x ∈ l, 0 < x) ↔ ∀ i < D, 0 < l.getD i 0) := by
    intro l hl
    constructor
    · intro h i hi
      rw [List.getD_eq_getElem _ _ (by omega)]
      exact h _ (List.getElem_mem _)
    · intro h x hx
      obtain ⟨i, hi, rfl⟩ := List.getElem_of_mem hx
      rw [← List.getD_eq_getElem _ 0 hi]
      exact h i (by omega)
  constructor
  · rintro ⟨_, _, v3, v4⟩
    refine ⟨fun i hi => ?_, fun i hi => ?_⟩
    · have := (pos _ l2).1 v4 i hi
      rw [(g i hi).2] at this
      linarith
    · have := (pos _ l1).1 v3 i hi
      rw [(g i hi).1] at this
      linarith
  · rintro ⟨v4, v3⟩
    refine ⟨l1, l2, (pos _ l1).2 fun i hi => ?_, (pos _ l2).2 fun i hi => ?_⟩
    · rw [(g i hi).1]
      linarith [v3 i hi]
    · rw [(g i hi).2]
      linarith [v4 i hi]

/-- C164, the negation: the mean of a trained model is the shape over the expectation of its posterior rate, so that, the larger
the data, the smaller the mean of the model after a full step. -/
theorem C164_trained_mean (D : ℕ) (m m' : Model) (data : List (List ℝ)) (hs : m.shape.length = D)
    (hp : GamValid D m.prior) (hq : GamValid D m.post) (hd : ∀ x ∈ data, x.length = D) (hu : m.update data 1 = .ok m')
    (hv : GamValid D m'.post) :
    ∃ mean, m'.mean = .ok mean ∧ mean.length = D ∧ ∀ i < D, mean.getD i 0 =
      m.shape.getD i 0 * (m.prior.rate.getD i 0 - (data.map fun x => x.getD i 0).sum) /
        (m.prior.shape.getD i 0 + data.length * m.shape.getD i 0) := by
  obtain ⟨p, e, l1, l2, g⟩ := C164_update D m data 1 hs hp.1 hp.2.1 hq.1 hq.2.1 hd
  have : m' = { m with post := p } := Except.ok.inj (hu.symm.trans e)
  subst this
  obtain ⟨v1, v2, v3, v4⟩ := hv
  dsimp only at v1 v2 v3 v4
  have hl : p.shape.length = p.rate.length := by rw [v1, v2]
  have pq := quot_pos p.shape p.rate v3 v4
  have ql : m.shape.length = (List.zipWith (· / ·) p.shape p.rate).length := by simp [v1, v2, hs]
  refine ⟨List.zipWith (· / ·) m.shape (List.zipWith (· / ·) p.shape p.rate), ?_, by simp [v1, v2, hs], fun i hi => ?_⟩
  · simp only [Model.mean]
    rw [vdiv_ok _ _ hl (not_zero_mem v4)]
    exact vdiv_ok _ _ ql (not_zero_mem pq)
  · rw [getD_quot _ _ ql, getD_quot _ _ hl, (g i hi).1, (g i hi).2, div_div_eq_mul_div]
    congr 1 <;> ring

/-- A model of two dimensions: mean `(1, 2)`, shape `(2, 2)`, strength 1; its prior has the rates `(1/2, 1)`. -/
example : ∃ m, create [1, 2] [2, 2] 1 = .ok m ∧ m.mean = .ok [1, 2] ∧ m.objective [[1, 1]] = .error .runtimeError ∧
    ∃ m', m.update [[1, 1]] 1 = .ok m' ∧ ¬ GamValid 2 m'.post := by
  obtain ⟨m, e, em, es, ep, ev, hr⟩ := C164_create_partial [1, 2] [2, 2] 1 rfl (by simp) (by simp) one_pos
  have hs : m.shape.length = 2 := by rw [es]; rfl
  obtain ⟨p, eu, _⟩ := C164_update 2 m [[1, 1]] 1 hs ev.1 ev.2.1 (ep ▸ ev.1) (ep ▸ ev.2.1) (by simp)
  refine ⟨m, e, em, (C164_no_objective m _ (by rw [← ep, ev.1, ev.2.1]) (by rw [← ep, ev.1]; simp)).1 (by simp), _, eu, ?_⟩
  intro hv
  have h0 := ((C164_invalid 2 m _ [[1, 1]] hs ev (ep ▸ ev) (by simp) eu).1 hv).1 0 (by norm_num)
  obtain ⟨r1, r2⟩ := hr 0 (by simp)
  rw [r1] at r2
  simp at r2 h0
  rw [← inv_inj, inv_inv] at r2
  rw [r2] at h0
  norm_num at h0

/-- A model of mean 2 and shape 1, strength 1: the rate of its prior is 2; one data point 1 leaves a valid posterior, of mean 1/2. -/
example : ∃ m m', create [2] [1] 1 = .ok m ∧ m.update [[1]] 1 = .ok m' ∧ ∃ l, m'.mean = .ok l ∧ l.getD 0 0 = 1 / 2 := by
  obtain ⟨m, e, em, es, ep, ev, hr⟩ := C164_create_partial [2] [1] 1 rfl (by simp) (by simp) one_pos
  have hs : m.shape.length = 1 := by rw [es]; rfl
  obtain ⟨p, eu, _⟩ := C164_update 1 m [[1]] 1 hs ev.1 ev.2.1 (ep ▸ ev.1) (ep ▸ ev.2.1) (by simp)
  obtain ⟨r1, r2⟩ := hr 0 (by simp)
  have hrate : m.prior.rate.getD 0 0 = 2 := by
    rw [r1] at r2
    simpa using r2
  have hv := (C164_invalid 1 m _ [[1]] hs ev (ep ▸ ev) (by simp) eu).2
    ⟨fun i hi => by obtain rfl : i = 0 := by omega
                    rw [hrate]; norm_num,
     fun i hi => by obtain rfl : i = 0 := by omega
                    rw [r1, es]; norm_num⟩
  obtain ⟨l, el, _, g⟩ := C164_trained_mean 1 m _ [[1]] hs ev (ep ▸ ev) (by simp) eu hv
  refine ⟨m, _, e, eu, l, el, ?_⟩
  rw [g 0 (by norm_num), hrate, r1, es]
  norm_num

end Verif.Props
