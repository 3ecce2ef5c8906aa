import Verif.Lemmas.WeightedFit
import Verif.Props.Offset

/-!
# C171 — training a mixture or an HMM re-estimates every Normal from its share of the data
-/

namespace Verif.Props

open Matrix Verif.VB Verif.Dists Verif.DistSpec Verif.FitSpec Verif.Mixture Verif.Spec

variable {D M K : ℕ} {X P : Type}

/-- Every member of the set is its prior pooled with its rows: the mean is that of `strength` observations at the mean of the
prior and of the rows, the covariance is `cov`. -/
def Reestimated (mk : CParam P → NormalParam) (strength : P → ℝ) (mean : P → Fin D → ℝ)
    (cov : P → WData D → Matrix (Fin D) (Fin D) ℝ) (st st' : Fin M → CParam P) (rows : Fin M → WData D) : Prop :=
  ∀ m, (st' m).prior = (st m).prior ∧ strength (st' m).post = strength (st m).prior + total (rows m) ∧
    HasMoments (mk (st' m))
      (pooledMean (strength (st m).prior) (total (rows m)) (mean (st m).prior) (wmean (rows m))) (cov (st m).prior (rows m))

/-- What a step makes of a mixture, when `lw` are the log-weights of the components before the step and `v x` the
log-likelihoods of `x`: every component is its prior pooled with the data, weighted by its share of them; the mean weights are
the counts of the prior plus the numbers of observations of the components, normalised; those numbers add up to the size of
the data set; and no data are lost: the means of the components add up to those of the priors and of the data. -/
def MixRefit {fam : Family X P} (mk : CParam P → NormalParam) (strength : P → ℝ) (mean : P → Fin D → ℝ)
    (cov : P → WData D → Matrix (Fin D) (Fin D) ℝ) (st st' : MixState (familySet fam K)) (data : List (Fin D → ℝ))
    (datasize : ℤ) (lw : Fin K → ℝ) (v : (Fin D → ℝ) → Fin K → ℝ) : Prop :=
  let rows := weighted (effSize data datasize / data.length) (data.map fun x => (x, share lw (v x)))
  Reestimated mk strength mean cov st.comps st'.comps rows ∧
  (dirMean st'.weights.post = List.ofFn fun k => (st.weights.prior.getD k 0 + total (rows k)) /
    (st.weights.prior.sum + effSize data datasize)) ∧
  ∑ k, total (rows k) = effSize data datasize ∧
  ∀ i : Fin D, ∑ k, strength (st'.comps k).post * (normalMean (mk (st'.comps k))).getD i 0 =
    ∑ k, strength (st.comps k).prior * mean (st.comps k).prior i + effSize data datasize * sampleMean data i

section generic

variable {fam : Family X P} {emb : (Fin D → ℝ) → X} {V : P → Prop} {XV : X → Prop} {mk : CParam P → NormalParam}
  {strength : P → ℝ} {mean : P → Fin D → ℝ} {cov : P → WData D → Matrix (Fin D) (Fin D) ℝ}

theorem set_refit (R : Refit fam emb V mk strength mean cov) (st : Fin M → CParam P) (hv : SetValid V st)
    (rows : List ((Fin D → ℝ) × (Fin M → ℝ))) (hr : ∀ r ∈ rows, ∀ m, 0 ≤ r.2 m) (scale : ℝ) (hs : 0 ≤ scale) :
    ∃ st', (familySet fam M).step st (rows.map fun r => (emb r.1, r.2)) scale 1 = .ok st' ∧ SetValid V st' ∧
      Reestimated mk strength mean cov st st' (weighted scale rows) := by
  choose p' e1 v1 e2 e3 using fun m : Fin M => R.update (st m).prior (st m).post (weighted scale rows m) (hv m).1 (hv m).2 (by
    intro r h
    obtain ⟨r', h', rfl⟩ := List.mem_map.1 h
    exact mul_nonneg hs (hr r' h' m))
  refine ⟨fun m => ⟨(st m).prior, p' m⟩, seqFin_ok _ _ fun m => ?_, fun m => ⟨(hv m).1, v1 m⟩, fun m => ⟨rfl, e2 m, e3 m⟩⟩
  rw [← e1 m, vsmul_wsum]
  unfold weighted
  simp only [List.map_map, Function.comp_def]

theorem sum_total (scale : ℝ) (rows : List ((Fin D → ℝ) × (Fin M → ℝ))) (c : ℝ) (h : ∀ r ∈ rows, ∑ m, r.2 m = c) :
    ∑ m, total (weighted scale rows m) = scale * c * rows.length := by
  induction rows with
  | nil => simp [total, weighted]
  | cons r rows ih =>
    have e : ∀ m, total (weighted scale (r :: rows) m) = scale * r.2 m + total (weighted scale rows m) := fun m => by
      simp [total, weighted]
    simp only [e]
    rw [Finset.sum_add_distrib, ih fun r hr => h r (List.mem_cons_of_mem _ hr), ← Finset.mul_sum,
      h r List.mem_cons_self, List.length_cons]
    push_cast
    ring

theorem sum_first_rows (scale : ℝ) (rows : List ((Fin D → ℝ) × (Fin M → ℝ))) (c : ℝ) (h : ∀ r ∈ rows, ∑ m, r.2 m = c)
    (i : Fin D) : ∑ m, ((weighted scale rows m).map fun r => r.1 * r.2 i).sum = scale * c * (rows.map fun r => r.1 i).sum := by
  induction rows with
  | nil => simp [weighted]
  | cons r rows ih =>
    have e : ∀ m, ((weighted scale (r :: rows) m).map fun r => r.1 * r.2 i).sum =
        r.2 m * (scale * r.1 i) + ((weighted scale rows m).map fun r => r.1 * r.2 i).sum := fun m => by
      simp only [weighted, List.map_cons, List.sum_cons]
      ring
    simp only [e]
    rw [Finset.sum_add_distrib, ih fun r hr => h r (List.mem_cons_of_mem _ hr), ← Finset.sum_mul,
      h r List.mem_cons_self, List.map_cons, List.sum_cons]
    ring

/-- No data are lost: the means of the members, with the numbers of observations behind them, add up to those of the priors and
to the data. -/
theorem refit_conserves (R : Refit fam emb V mk strength mean cov) (st st' : Fin M → CParam P) (hv : SetValid V st)
    (rows : List ((Fin D → ℝ) × (Fin M → ℝ))) (hr : ∀ r ∈ rows, ∀ m, 0 ≤ r.2 m) (scale c : ℝ) (hs : 0 ≤ scale)
    (hc : ∀ r ∈ rows, ∑ m, r.2 m = c) (h : Reestimated mk strength mean cov st st' (weighted scale rows)) (i : Fin D) :
    ∑ m, strength (st' m).post * (normalMean (mk (st' m))).getD i 0 =
      ∑ m, strength (st m).prior * mean (st m).prior i + scale * c * (rows.map fun r => r.1 i).sum := by
  rw [← sum_first_rows scale rows c hc i, ← Finset.sum_add_distrib]
  refine Finset.sum_congr rfl fun m _ => ?_
  obtain ⟨-, h2, h3, -⟩ := h m
  have h0 : ∀ r ∈ weighted scale rows m, 0 ≤ r.1 := by
    intro r h
    obtain ⟨r', h', rfl⟩ := List.mem_map.1 h
    exact mul_nonneg hs (hr r' h' m)
  have hp := R.pos _ (hv m).1
  have hn := sum_nonneg_of _ h0
  rw [h3, h2, wsum_first _ h0]
  have : ∀ f : Fin D → ℝ, (List.ofFn f).getD (i : ℕ) 0 = f i := fun f => by simp [List.getD_eq_getElem?_getD]
  rw [this]
  unfold pooledMean
  rw [mul_div_cancel₀ _ (by positivity)]

theorem share_eq (hK : 1 ≤ K) (lw v : Fin K → ℝ) : (mixLocal lw v).resps = share lw v := by
  funext k
  have hp : 0 < ∑ j, Real.exp (v j + lw j) := sumExp_pos hK fun k => v k + lw k
  unfold mixLocal share
  dsimp only
  rw [Real.exp_sub, Real.exp_log hp, Real.exp_add, mul_comm]
  congr 1
  exact Finset.sum_congr rfl fun j _ => by rw [Real.exp_add, mul_comm]

theorem dir_refit (hK : 1 ≤ K) (w : CParam (List ℝ)) (hw : ParamValid (DirValid K) w) (scale : ℝ)
    (resps : List (Fin K → ℝ)) :
    (dirFam K).update w (vsmul scale (mixCatStats resps)) 1 =
      .ok ⟨w.prior, List.ofFn fun k : Fin K => w.prior.getD k 0 + (resps.map fun r => scale * r k).sum⟩ := by
  set data : List (ℝ × List ℝ) := resps.map fun r => (scale, List.ofFn r) with hdata
  have hd : DataDim K data := by
    intro r hr
    obtain ⟨x, hx, rfl⟩ := List.mem_map.1 hr
    simp
  have e : vsmul scale (mixCatStats resps) = wsum K (data.map fun r => (r.1, catStats r.2)) := by
    unfold mixCatStats
    rw [vsmul_wsum, hdata, List.map_map, List.map_map]
    congr 1
    simp [Function.comp_def]
  have key := C33_dirichlet_update_adds_counts K hK w.prior w.post data hw.1.1 hw.2.1 hd
  have hl : ∀ c : List ℝ, DirValid K c → (dirNatural c).length = K := fun c h => dir_len hK h
  have hlen : (wsum K (data.map fun r => (r.1, catStats r.2))).length = K := by
    apply length_wsum
    intro r hr
    obtain ⟨r', hr', rfl⟩ := List.mem_map.1 hr
    have := hd r' hr'
    rw [length_catStats _ (ne_nil_of_length hK this), this]
  rw [e]
  refine update_of _ _ _ _ (dirNatural w.prior) (dirNatural w.post) _ rfl rfl (by rw [hl _ hw.1]; exact hlen.symm)
    (by rw [hl _ hw.1, hl _ hw.2]) ?_
  refine Eq.trans key ?_
  rw [map_range_ofFn]
  congr 2
  funext k
  congr 1
  rw [hdata]
  unfold first
  rw [List.map_map]
  congr 1
  refine List.map_congr_left fun r _ => ?_
  simp [List.getD_eq_getElem?_getD]

theorem mix_refit (R : Refit fam emb V mk strength mean cov) (C : Conj fam V XV) (hX : ∀ x, XV (emb x)) (hK : 1 ≤ K)
    (st : MixState (familySet fam K)) (hv : MixValid (familySet fam K) (SetValid V) st) (data : List (Fin D → ℝ))
    (hne : data ≠ []) (datasize : ℤ) :
    ∃ (lw : Fin K → ℝ) (v : (Fin D → ℝ) → Fin K → ℝ) (st' : MixState (familySet fam K)),
      logWeights K st.weights.post = .ok lw ∧ (∀ x, (familySet fam K).llh st.comps (emb x) = .ok (v x)) ∧
      mixStep (familySet fam K) st (data.map emb) datasize 1 = .ok st' ∧
      MixRefit mk strength mean cov st st' data datasize lw v := by
  have hlen : (0 : ℝ) < data.length := by exact_mod_cast List.length_pos_of_ne_nil hne
  have hn := effSize_pos data datasize hne
  set scale := effSize data datasize / data.length with hscale
  have hs : 0 ≤ scale := by positivity
  have hin := familySet_lawful C K
  choose v hv1 using fun x => hin.llh_ok st.comps (emb x) hv.2 (hX x)
  have hlw := logWeights_eq _ hv.1.2.1
  set lw := lwOf K st.weights.post with hlwd
  have hsh : ∀ x, share lw (v x) = (mixLocal lw (v x)).resps := fun x => (share_eq hK _ _).symm
  have h0 : ∀ x k, 0 ≤ share lw (v x) k := fun x k => by rw [hsh]; exact (C44_responsibilities hK _ _).1.1 k
  have h1 : ∀ x, ∑ k, share lw (v x) k = 1 := fun x => by rw [hsh]; exact (C44_responsibilities hK _ _).1.2
  set rows0 : List ((Fin D → ℝ) × (Fin K → ℝ)) := data.map fun x => (x, share lw (v x)) with hrows0
  have hr0 : ∀ r ∈ rows0, ∀ m, 0 ≤ r.2 m := by
    intro r hr m
    obtain ⟨x, hx, rfl⟩ := List.mem_map.1 hr
    exact h0 x m
  have hr1 : ∀ r ∈ rows0, ∑ m, r.2 m = 1 := by
    intro r hr
    obtain ⟨x, hx, rfl⟩ := List.mem_map.1 hr
    exact h1 x
  obtain ⟨s', s1, s2, s3⟩ := set_refit R st.comps hv.2 rows0 hr0 scale hs
  have hN : ∑ k, total (weighted scale rows0 k) = effSize data datasize := by
    rw [sum_total scale rows0 1 hr1, hscale, hrows0, List.length_map]
    field_simp
  have hdir := dir_refit hK st.weights hv.1 scale (data.map fun x => share lw (v x))
  refine ⟨lw, v, ⟨⟨st.weights.prior, List.ofFn fun k : Fin K => st.weights.prior.getD k 0 +
      ((data.map fun x => share lw (v x)).map fun r => scale * r k).sum⟩, s'⟩, hlw, hv1, ?_, s3, ?_, hN, fun i => ?_⟩
  rotate_left
  · have ht : ∀ k, ((data.map fun x => share lw (v x)).map fun r => scale * r k).sum = total (weighted scale rows0 k) := by
      intro k
      unfold total weighted
      rw [hrows0]
      simp only [List.map_map, Function.comp_def]
    simp only [ht]
    unfold dirMean
    rw [List.map_ofFn, List.sum_ofFn, Finset.sum_add_distrib, hN]
    have e : st.weights.prior.sum = ∑ k : Fin K, st.weights.prior.getD k 0 := by
      have : st.weights.prior = List.ofFn fun k : Fin K => st.weights.prior.getD k 0 := by
        apply List.ext_getElem
        · simp [hv.1.1.1]
        · intro i a b
          simp [List.getD_eq_getElem?_getD, List.getElem?_eq_getElem a]
      conv_lhs => rw [this]
      rw [List.sum_ofFn]
    rw [e]
    rfl
  · have := refit_conserves R st.comps s' hv.2 rows0 hr0 scale 1 hs hr1 s3 i
    rw [this]
    congr 1
    rw [hrows0, List.map_map]
    show scale * 1 * (data.map fun x => x i).sum = _
    rw [sum_first data hne, hscale]
    field_simp
  · unfold mixStep
    have hout : ∀ x ∈ data.map emb, mixOut (familySet fam K) st x =
        .ok (mixLocal lw (valueOf 0 ((familySet fam K).llh st.comps x))) := by
      intro x hx
      obtain ⟨y, hy, rfl⟩ := List.mem_map.1 hx
      unfold mixOut
      rw [hlw, hv1]
      rfl
    have hval : ∀ y, valueOf 0 ((familySet fam K).llh st.comps (emb y)) = v y := fun y => by rw [hv1]; rfl
    rw [List.length_map, batchScale_eff data datasize hne, ok_bind, mapM_ok_map _ _ _ hout, ok_bind]
    have a1 : (((data.map emb).map fun x => mixLocal lw (valueOf 0 ((familySet fam K).llh st.comps x))).map
        fun o => o.resps) = data.map fun x => share lw (v x) := by
      rw [List.map_map, List.map_map]
      refine List.map_congr_left fun x _ => ?_
      simp only [Function.comp, hval, hsh]
    rw [a1, hdir, ok_bind, zipWith_map_right]
    have a2 : ((data.map emb).map fun x => (x, (mixLocal lw (valueOf 0 ((familySet fam K).llh st.comps x))).resps)) =
        rows0.map fun r => (emb r.1, r.2) := by
      rw [hrows0, List.map_map, List.map_map]
      refine List.map_congr_left fun x _ => ?_
      simp only [Function.comp, hval, hsh]
    rw [a2, s1]
    rfl

theorem mix_single (C : Conj fam V XV) (hX : ∀ x, XV (emb x)) (st : MixState (familySet fam 1))
    (hv : MixValid (familySet fam 1) (SetValid V) st) (data : List (Fin D → ℝ)) (hne : data ≠ []) (datasize : ℤ) (l : ℝ)
    (h0 : 0 < l) (h1 : l ≤ 1) :
    ∃ st' : MixState (familySet fam 1), mixStep (familySet fam 1) st (data.map emb) datasize l = .ok st' ∧
      fam.update (st.comps 0) (normalAcc fam (data.map emb) (effSize data datasize / data.length)) l = .ok (st'.comps 0) := by
  have hn := effSize_pos data datasize hne
  have hin := familySet_lawful C 1
  choose v hv1 using fun x => hin.llh_ok st.comps (emb x) hv.2 (hX x)
  have hlw := logWeights_eq _ hv.1.2.1
  obtain ⟨p', e1, -, -, -⟩ := C.gain (st.comps 0) (data.map fun x => ((1 : ℝ), emb x)) (effSize data datasize / data.length) l
    (hv.2 0) (by
      intro r h
      obtain ⟨x, hx, rfl⟩ := List.mem_map.1 h
      exact ⟨zero_le_one, hX x⟩) (by positivity) h0 h1
  obtain ⟨st', -, -, e, -⟩ := mix_step le_rfl (familySet fam 1) (SetValid V) XV hin st hv (data.map emb) (by
    intro x hx
    obtain ⟨y, hy, rfl⟩ := List.mem_map.1 hx
    exact hX y) (by simpa using hne) datasize l h0 h1
  refine ⟨st', e, ?_⟩
  have e2 : fam.update (st.comps 0) (normalAcc fam (data.map emb) (effSize data datasize / data.length)) l =
      .ok ⟨(st.comps 0).prior, p'⟩ := by
    rw [← e1]
    unfold normalAcc Conj.acc
    simp only [List.map_map, Function.comp_def]
  rw [e2]
  have hout : ∀ x ∈ data.map emb, mixOut (familySet fam 1) st x =
      .ok (mixLocal (lwOf 1 st.weights.post) (valueOf 0 ((familySet fam 1).llh st.comps x))) := by
    intro x hx
    obtain ⟨y, hy, rfl⟩ := List.mem_map.1 hx
    unfold mixOut
    rw [hlw, hv1]
    rfl
  have hone : ∀ (lw v : Fin 1 → ℝ), (mixLocal lw v).resps = fun _ => 1 := by
    intro lw v
    funext k
    have := (C44_responsibilities Nat.one_pos lw v).1.2
    rw [Fin.sum_univ_one] at this
    rwa [Fin.fin_one_eq_zero k]
  have hstep : (familySet fam 1).step st.comps ((data.map emb).map fun x => (x, fun _ => 1))
      (effSize data datasize / data.length) l = .ok fun _ => ⟨(st.comps 0).prior, p'⟩ := by
    refine seqFin_ok _ _ fun m => ?_
    rw [Fin.fin_one_eq_zero m, ← e2]
    unfold normalAcc
    simp only [List.map_map, Function.comp_def]
  unfold mixStep at e
  rw [List.length_map, batchScale_eff data datasize hne, ok_bind, mapM_ok_map _ _ _ hout, ok_bind, zipWith_map_right] at e
  simp only [hone] at e
  rw [hstep] at e
  rcases hd : (dirFam 1).update st.weights (vsmul (effSize data datasize / data.length) (mixCatStats
      (((data.map emb).map fun x => mixLocal (lwOf 1 st.weights.post) (valueOf 0 ((familySet fam 1).llh st.comps x))).map
        fun o => o.resps))) l with er | w
  · rw [hd] at e
    exact absurd e (by rintro ⟨⟩)
  · rw [hd] at e
    have := Except.ok.inj e
    rw [← this]

/-- The frames of an utterance given to the models. -/
def embUtt (emb : (Fin D → ℝ) → X) (u : Utt (Fin D → ℝ)) : Utt X := ⟨u.1, fun t => emb (u.2 t)⟩

/-- The frames of the utterances, with `a` times the probabilities of the states at each of them: `v u` are the scores of the
states, and the probability of a state at a frame is the share of the sequences of states that are in this state there. -/
noncomputable def stateRows {S : ℕ} (g : CGraph S) (a : ℝ) (v : ∀ u : Utt (Fin D → ℝ), Fin (u.1 + 1) → Fin S → ℝ)
    (utts : List (Utt (Fin D → ℝ))) : List ((Fin D → ℝ) × (Fin S → ℝ)) :=
  utts.flatMap fun u => List.ofFn fun t => (u.2 t, fun s => a * gam g (v u) t s)

theorem sum_gam_one {S n : ℕ} (g : CGraph S) (v : Fin (n + 1) → Fin S → ℝ) (h : 0 < evidence g (asLog v)) (t : Fin (n + 1)) :
    ∑ s, gam g v t s = 1 := by
  unfold gam
  rw [← Finset.sum_div, Finset.sum_comm]
  simp only [Finset.sum_ite_eq, Finset.mem_univ, if_true]
  exact div_self h.ne'

theorem hmm_refit {S : ℕ} (g : CGraph S) (R : Refit fam emb V mk strength mean cov) (C : Conj fam V XV)
    (hX : ∀ x, XV (emb x)) (st : Fin S → CParam P) (hv : SetValid V st) (a : ℝ) (ha : 0 ≤ a)
    (utts : List (Utt (Fin D → ℝ))) (hu : ∀ u ∈ utts, Feasible g u) (scale : ℝ) (hs : 0 ≤ scale) :
    ∃ (v : ∀ u : Utt (Fin D → ℝ), Fin (u.1 + 1) → Fin S → ℝ) (st' : Fin S → CParam P),
      (∀ u, hmmLlhs (familySet fam S) st a (embUtt emb u) = .ok (v u)) ∧
      hmmStep g (familySet fam S) st a (utts.map (embUtt emb)) scale 1 = .ok st' ∧
      Reestimated mk strength mean cov st st' (weighted scale (stateRows g a v utts)) ∧
      ∑ s, total (weighted scale (stateRows g a v utts) s) = scale * a * ((utts.map fun u => u.1 + 1).sum : ℕ) ∧
      ∀ i : Fin D, ∑ s, strength (st' s).post * (normalMean (mk (st' s))).getD i 0 =
        ∑ s, strength (st s).prior * mean (st s).prior i + scale * a * (utts.map fun u => ∑ t, u.2 t i).sum := by
  have hin := familySet_lawful C S
  have hf : ∀ u : Utt (Fin D → ℝ), Feasible g (embUtt emb u) ↔ Feasible g u := fun u => Iff.rfl
  set v : ∀ u : Utt (Fin D → ℝ), Fin (u.1 + 1) → Fin S → ℝ :=
    fun u => scoresOf (familySet fam S) st a (embUtt emb u) with hvd
  have hr0 : ∀ r ∈ stateRows g a v utts, ∀ m, 0 ≤ r.2 m := by
    intro r hr m
    obtain ⟨u, hu', hr'⟩ := List.mem_flatMap.1 hr
    rw [List.mem_ofFn] at hr'
    obtain ⟨t, rfl⟩ := hr'
    exact mul_nonneg ha (gam_nonneg g _ t m)
  have hr1 : ∀ r ∈ stateRows g a v utts, ∑ m, r.2 m = a := by
    intro r hr
    obtain ⟨u, hu', hr'⟩ := List.mem_flatMap.1 hr
    rw [List.mem_ofFn] at hr'
    obtain ⟨t, rfl⟩ := hr'
    show ∑ m, a * gam g (v u) t m = a
    rw [← Finset.mul_sum, sum_gam_one g (v u) (evidence_pos_of_feasible g (hu u hu') _), mul_one]
  obtain ⟨st', s1, -, s3⟩ := set_refit R st hv (stateRows g a v utts) hr0 scale hs
  refine ⟨v, st', fun u => hmmLlhs_eq _ _ _ hin st hv a _ fun t => hX _, ?_, s3, ?_, fun i => ?_⟩
  · unfold hmmStep
    rw [mapM_ok_map _ (fun u : Utt X => List.ofFn fun t => (u.2 t, fun s => a * gam g (scoresOf (familySet fam S) st a u) t s)) _ (by
      intro u hu'
      obtain ⟨w, hw, rfl⟩ := List.mem_map.1 hu'
      exact hmmRows_eq g _ _ _ hin st hv a _ (fun t => hX _) (hu w hw)), ok_bind, ← s1]
    congr 1
    unfold stateRows
    rw [List.map_map, List.map_flatMap, List.flatMap_def]
    congr 1
    refine List.map_congr_left fun u _ => ?_
    simp only [Function.comp, List.map_ofFn]
    rfl
  · rw [sum_total scale _ a hr1]
    congr 2
    unfold stateRows
    rw [List.length_flatMap]
    simp
  · rw [refit_conserves R st st' hv _ hr0 scale a hs hr1 s3 i]
    congr 2
    unfold stateRows
    rw [List.map_flatMap, List.flatMap_def, List.sum_flatten, List.map_map]
    congr 1
    refine List.map_congr_left fun u _ => ?_
    simp only [Function.comp, List.map_ofFn, List.sum_ofFn]

end generic

/-- **C171, diagonal covariances.** A step of learning rate one of a mixture of Normal models. -/
theorem C171_mixture_diagonal (hD : 1 ≤ D) (hK : 1 ≤ K) (st : MixState (familySet (ngFam D) K))
    (hv : MixValid (familySet (ngFam D) K) (SetValid (NGValid D)) st) (data : List (Fin D → ℝ)) (hne : data ≠ [])
    (datasize : ℤ) :
    ∃ lw v st', logWeights K st.weights.post = .ok lw ∧
      (∀ x, (familySet (ngFam D) K).llh st.comps (List.ofFn x) = .ok (v x)) ∧
      mixStep (familySet (ngFam D) K) st (data.map List.ofFn) datasize 1 = .ok st' ∧
      MixRefit .diagonal (fun p => p.scale) (fun p i => p.mean.getD i 0) diagFit st st' data datasize lw v :=
  mix_refit (ng_refit hD) (ngConj hD) (fun x => by simp) hK st hv data hne datasize

/-- **C171, isotropic covariances.** -/
theorem C171_mixture_isotropic (hD : 1 ≤ D) (hK : 1 ≤ K) (st : MixState (familySet (ingFam D) K))
    (hv : MixValid (familySet (ingFam D) K) (SetValid (INGValid D)) st) (data : List (Fin D → ℝ)) (hne : data ≠ [])
    (datasize : ℤ) :
    ∃ lw v st', logWeights K st.weights.post = .ok lw ∧
      (∀ x, (familySet (ingFam D) K).llh st.comps (List.ofFn x) = .ok (v x)) ∧
      mixStep (familySet (ingFam D) K) st (data.map List.ofFn) datasize 1 = .ok st' ∧
      MixRefit .isotropic (fun p => p.scale) (fun p i => p.mean.getD i 0) isoFit st st' data datasize lw v :=
  mix_refit (ing_refit hD) (ingConj hD) (fun x => by simp) hK st hv data hne datasize

/-- **C171, full covariances.** -/
theorem C171_mixture_full (hD : 1 ≤ D) (hK : 1 ≤ K) (st : MixState (familySet (nwFam D) K))
    (hv : MixValid (familySet (nwFam D) K) (SetValid (NWValidD D)) st) (data : List (Fin D → ℝ)) (hne : data ≠ [])
    (datasize : ℤ) :
    ∃ lw v st', logWeights K st.weights.post = .ok lw ∧
      (∀ x, (familySet (nwFam D) K).llh st.comps x = .ok (v x)) ∧
      mixStep (familySet (nwFam D) K) st data datasize 1 = .ok st' ∧
      MixRefit .full (fun p => p.2.scale) (fun p => (nwOf D p).mean) (fun p => fullFit (nwOf D p)) st st' data datasize lw v := by
  have h := mix_refit (nw_refit hD) nwConj (fun _ => trivial) hK st hv data hne datasize
  rw [List.map_id] at h
  exact h

/-- **C171.** A mixture of one Normal model is trained like the model alone, at any learning rate. -/
theorem C171_mixture_of_one (hD : 1 ≤ D) (data : List (Fin D → ℝ)) (hne : data ≠ []) (datasize : ℤ) (l : ℝ)
    (h0 : 0 < l) (h1 : l ≤ 1) :
    (∀ st, MixValid (familySet (ngFam D) 1) (SetValid (NGValid D)) st → ∃ st',
      mixStep (familySet (ngFam D) 1) st (data.map List.ofFn) datasize l = .ok st' ∧
      normalStep (.diagonal (st.comps 0)) data datasize l = .ok (.diagonal (st'.comps 0))) ∧
    (∀ st, MixValid (familySet (ingFam D) 1) (SetValid (INGValid D)) st → ∃ st',
      mixStep (familySet (ingFam D) 1) st (data.map List.ofFn) datasize l = .ok st' ∧
      normalStep (.isotropic (st.comps 0)) data datasize l = .ok (.isotropic (st'.comps 0))) ∧
    (∀ st, MixValid (familySet (nwFam D) 1) (SetValid (NWValidD D)) st → ∃ st',
      mixStep (familySet (nwFam D) 1) st data datasize l = .ok st' ∧
      normalStep (.full (st.comps 0)) data datasize l = .ok (.full (st'.comps 0))) := by
  refine ⟨fun st hv => ?_, fun st hv => ?_, fun st hv => ?_⟩
  · obtain ⟨st', e1, e2⟩ := mix_single (emb := List.ofFn) (ngConj hD) (fun x => by simp) st hv data hne datasize l h0 h1
    exact ⟨st', e1, step_diagonal hne datasize l e2⟩
  · obtain ⟨st', e1, e2⟩ := mix_single (emb := List.ofFn) (ingConj hD) (fun x => by simp) st hv data hne datasize l h0 h1
    exact ⟨st', e1, step_isotropic hne datasize l e2⟩
  · obtain ⟨st', e1, e2⟩ := mix_single (emb := id) nwConj (fun _ => trivial) st hv data hne datasize l h0 h1
    rw [List.map_id] at e1 e2
    exact ⟨st', e1, step_full hne datasize l e2⟩

/-- What a step makes of the Normal models of the states of an HMM: every one is its prior pooled with the frames of the
utterances, weighted by `scale` times the acoustic scale times the probability of the state at the frame; the numbers of
observations of the states add up to the number of frames, times both scales; and no frame is lost. -/
def HmmRefit {S : ℕ} (g : CGraph S) (mk : CParam P → NormalParam) (strength : P → ℝ) (mean : P → Fin D → ℝ)
    (cov : P → WData D → Matrix (Fin D) (Fin D) ℝ) (st st' : Fin S → CParam P) (a : ℝ) (utts : List (Utt (Fin D → ℝ)))
    (scale : ℝ) (v : ∀ u : Utt (Fin D → ℝ), Fin (u.1 + 1) → Fin S → ℝ) : Prop :=
  Reestimated mk strength mean cov st st' (weighted scale (stateRows g a v utts)) ∧
  ∑ s, total (weighted scale (stateRows g a v utts) s) = scale * a * ((utts.map fun u => u.1 + 1).sum : ℕ) ∧
  ∀ i : Fin D, ∑ s, strength (st' s).post * (normalMean (mk (st' s))).getD i 0 =
    ∑ s, strength (st s).prior * mean (st s).prior i + scale * a * (utts.map fun u => ∑ t, u.2 t i).sum

/-- **C171, HMM with diagonal covariances.** -/
theorem C171_hmm_diagonal {S : ℕ} (g : CGraph S) (hD : 1 ≤ D) (st : Fin S → CParam (NG ℝ)) (hv : SetValid (NGValid D) st)
    (a : ℝ) (ha : 0 ≤ a) (utts : List (Utt (Fin D → ℝ))) (hu : ∀ u ∈ utts, Feasible g u) (scale : ℝ) (hs : 0 ≤ scale) :
    ∃ v st', (∀ u, hmmLlhs (familySet (ngFam D) S) st a (embUtt List.ofFn u) = .ok (v u)) ∧
      hmmStep g (familySet (ngFam D) S) st a (utts.map (embUtt List.ofFn)) scale 1 = .ok st' ∧
      HmmRefit g .diagonal (fun p => p.scale) (fun p i => p.mean.getD i 0) diagFit st st' a utts scale v :=
  hmm_refit g (ng_refit hD) (ngConj hD) (fun x => by simp) st hv a ha utts hu scale hs

/-- **C171, HMM with isotropic covariances.** -/
theorem C171_hmm_isotropic {S : ℕ} (g : CGraph S) (hD : 1 ≤ D) (st : Fin S → CParam (ING ℝ)) (hv : SetValid (INGValid D) st)
    (a : ℝ) (ha : 0 ≤ a) (utts : List (Utt (Fin D → ℝ))) (hu : ∀ u ∈ utts, Feasible g u) (scale : ℝ) (hs : 0 ≤ scale) :
    ∃ v st', (∀ u, hmmLlhs (familySet (ingFam D) S) st a (embUtt List.ofFn u) = .ok (v u)) ∧
      hmmStep g (familySet (ingFam D) S) st a (utts.map (embUtt List.ofFn)) scale 1 = .ok st' ∧
      HmmRefit g .isotropic (fun p => p.scale) (fun p i => p.mean.getD i 0) isoFit st st' a utts scale v :=
  hmm_refit g (ing_refit hD) (ingConj hD) (fun x => by simp) st hv a ha utts hu scale hs

/-- **C171, HMM with full covariances.** -/
theorem C171_hmm_full {S : ℕ} (g : CGraph S) (hD : 1 ≤ D) (st : Fin S → CParam (Σ D : ℕ, NW D)) (hv : SetValid (NWValidD D) st)
    (a : ℝ) (ha : 0 ≤ a) (utts : List (Utt (Fin D → ℝ))) (hu : ∀ u ∈ utts, Feasible g u) (scale : ℝ) (hs : 0 ≤ scale) :
    ∃ v st', (∀ u, hmmLlhs (familySet (nwFam D) S) st a (embUtt id u) = .ok (v u)) ∧
      hmmStep g (familySet (nwFam D) S) st a (utts.map (embUtt id)) scale 1 = .ok st' ∧
      HmmRefit g .full (fun p => p.2.scale) (fun p => (nwOf D p).mean) (fun p => fullFit (nwOf D p)) st st' a utts scale v :=
  hmm_refit g (nw_refit hD) nwConj (fun _ => trivial) st hv a ha utts hu scale hs

/-- A Normal model of mean 0 and variance 1, with a prior of one observation. -/
noncomputable def unitNG : CParam (NG ℝ) := ⟨⟨[0], 1, 1, [1]⟩, ⟨[0], 1, 1, [1]⟩⟩

theorem unitNG_valid : ParamValid (NGValid 1) unitNG := by
  refine ⟨⟨rfl, rfl, ?_, ?_, ?_⟩, ⟨rfl, rfl, ?_, ?_, ?_⟩⟩ <;> simp [unitNG]

/-- Two such components with the same weight. -/
noncomputable def twins : MixState (familySet (ngFam 1) 2) := ⟨⟨[1, 1], [1, 1]⟩, fun _ => unitNG⟩

theorem twins_valid : MixValid (familySet (ngFam 1) 2) (SetValid (NGValid 1)) twins := by
  refine ⟨⟨⟨rfl, ?_⟩, ⟨rfl, ?_⟩⟩, fun _ => unitNG_valid⟩ <;> simp [twins]

/-- The data 1 and 3. -/
def twoData : List (Fin 1 → ℝ) := [fun _ => 1, fun _ => 3]

theorem share_same (lw v : Fin 2 → ℝ) (h : lw 0 = lw 1) (h' : v 0 = v 1) (k : Fin 2) : share lw v k = 1 / 2 := by
  have a : ∀ j, lw j = lw 0 := fun j => by fin_cases j; exacts [rfl, h.symm]
  have b : ∀ j, v j = v 0 := fun j => by fin_cases j; exacts [rfl, h'.symm]
  unfold share
  simp only [a, b, Finset.sum_const, Finset.card_univ, Fintype.card_fin]
  have := Real.exp_pos (lw 0)
  have := Real.exp_pos (v 0)
  rw [nsmul_eq_mul]
  field_simp
  norm_num

/-- Two equal components share the data 1 and 3 equally: each counts for one observation at 2, its mean becomes 1. -/
example : ∃ st', mixStep (familySet (ngFam 1) 2) twins (twoData.map List.ofFn) (-1) 1 = .ok st' ∧
    (∀ k, normalMean (.diagonal (st'.comps k)) = [1]) ∧ dirMean st'.weights.post = [1 / 2, 1 / 2] := by
  obtain ⟨lw, v, st', h1, h2, h3, h4, h5, -, -⟩ := C171_mixture_diagonal le_rfl (by decide) twins twins_valid twoData
    (by simp [twoData]) (-1)
  have hlw : lw 0 = lw 1 := by
    have := Except.ok.inj ((logWeights_eq _ rfl).symm.trans h1)
    rw [← this]
    simp [lwOf, twins, catExpLlh, dirExpStats, catStats, List.ofFn_succ, vdot]
  have hv : ∀ x, v x 0 = v x 1 := by
    intro x
    have e0 : (ngFam 1).llh unitNG (List.ofFn x) = .ok (vdot ((ngConj le_rfl).T unitNG.post) ((ngFam 1).stats (List.ofFn x)) +
        (ngConj le_rfl).base) := (ngConj le_rfl).llh_eq _ _ unitNG_valid.2 (by simp)
    have e1 : (familySet (ngFam 1) 2).llh twins.comps (List.ofFn x) = .ok fun _ => (vdot ((ngConj le_rfl).T unitNG.post)
        ((ngFam 1).stats (List.ofFn x)) + (ngConj le_rfl).base) := seqFin_ok _ _ fun m => e0
    have := Except.ok.inj (e1.symm.trans (h2 x))
    rw [← this]
  have hr : ∀ k, weighted (effSize twoData (-1) / twoData.length) (twoData.map fun x => (x, share lw (v x))) k =
      [(1 / 2, fun _ => 1), (1 / 2, fun _ => 3)] := by
    intro k
    simp [weighted, twoData, effSize, share_same lw _ hlw (hv _)]
  have ht : total ([(1 / 2, fun _ => 1), (1 / 2, fun _ => 3)] : WData 1) = 1 := by simp [total]; norm_num
  refine ⟨st', h3, fun k => ?_, ?_⟩
  · have h := (h4 k).2.2.1
    rw [hr, ht] at h
    rw [h]
    simp [pooledMean, wmean, twins, unitNG]
    norm_num
  · rw [h5]
    simp only [hr, ht]
    simp [twins, effSize, twoData, List.ofFn_succ]
    norm_num

theorem demo_only (v : Fin (1 + 1) → Fin 2 → ℝ) (q : Fin (1 + 1) → Fin 2) (hq : pathScore demoGraph (asLog v) q ≠ ⊥) :
    q = ![0, 1] := by
  have h0 : q 0 = 0 := by
    by_contra h
    have h1 : q 0 = 1 := by omega
    apply hq
    simp [pathScore, demoGraph, h1]
  have h1 : q 1 = 1 := by
    by_contra h
    have h1 : q 1 = 0 := by omega
    apply hq
    simp [pathScore, demoGraph, h1, Fin.last]
  funext i
  fin_cases i
  · exact h0
  · exact h1

theorem demo_weight (v : Fin (1 + 1) → Fin 2 → ℝ) : 0 < pathWeight demoGraph (asLog v) ![0, 1] := by
  rw [← lexp_pathScore, lexp_pos_iff]
  simp [pathScore, demoGraph, asLog]

theorem demo_gam (v : Fin (1 + 1) → Fin 2 → ℝ) (t : Fin (1 + 1)) (s : Fin 2) :
    gam demoGraph v t s = if (![0, 1] : Fin 2 → Fin 2) t = s then 1 else 0 := by
  have hz : ∀ q, q ≠ ![0, 1] → pathWeight demoGraph (asLog v) q = 0 := fun q hq => by
    rw [← lexp_pathScore, lexp_eq_zero_iff]
    by_contra h
    exact hq (demo_only v q h)
  have he : evidence demoGraph (asLog v) = pathWeight demoGraph (asLog v) ![0, 1] :=
    Finset.sum_eq_single _ (fun q _ hq => hz q hq) (fun h => absurd (Finset.mem_univ _) h)
  unfold gam
  rw [he, Finset.sum_eq_single (![0, 1] : Fin (1 + 1) → Fin 2) (fun q _ hq => by rw [hz q hq, ite_self])
    (fun h => absurd (Finset.mem_univ _) h)]
  have := (demo_weight v).ne'
  split_ifs
  · exact div_self this
  · exact zero_div _

/-- Two frames at 2 and 8. -/
def twoFrames : Utt (Fin 1 → ℝ) := ⟨1, ![fun _ => 2, fun _ => 8]⟩

/-- The left-to-right graph gives the first frame to its first state and the second to its second: with priors of one observation
at 0, the means become 1 and 4. -/
example : ∃ st', hmmStep demoGraph (familySet (ngFam 1) 2) (fun _ => unitNG) 1 [embUtt List.ofFn twoFrames] 1 1 = .ok st' ∧
    normalMean (.diagonal (st' 0)) = [1] ∧ normalMean (.diagonal (st' 1)) = [4] := by
  have hf : Feasible demoGraph twoFrames := by
    have := demo_weight fun _ _ => 0
    exact this.trans_le (Finset.single_le_sum (f := pathWeight demoGraph (asLog fun _ _ => 0))
      (fun p _ => pathWeight_nonneg _ _ p) (Finset.mem_univ ![0, 1]))
  obtain ⟨v, st', -, e, h, -, -⟩ := C171_hmm_diagonal demoGraph le_rfl (fun _ => unitNG) (fun _ => unitNG_valid) 1 zero_le_one
    [twoFrames] (by simpa using hf) 1 zero_le_one
  have hr : ∀ s, weighted 1 (stateRows demoGraph 1 v [twoFrames]) s =
      [(if (0 : Fin 2) = s then 1 else 0, fun _ => 2), (if (1 : Fin 2) = s then 1 else 0, fun _ => 8)] := by
    intro s
    have hg : ∀ t, gam demoGraph (v twoFrames) t s = if (![0, 1] : Fin 2 → Fin 2) t = s then 1 else 0 :=
      fun t => demo_gam (v twoFrames) t s
    simp only [stateRows, weighted, List.flatMap_cons, List.flatMap_nil, List.append_nil, List.map_ofFn, Function.comp_def,
      one_mul, hg]
    simp [twoFrames, List.ofFn_succ]
    rfl
  refine ⟨st', e, ?_, ?_⟩
  · have := (h 0).2.2.1
    rw [hr] at this
    rw [this]
    simp [pooledMean, wmean, total, unitNG]
    norm_num
  · have := (h 1).2.2.1
    rw [hr] at this
    rw [this]
    simp [pooledMean, wmean, total, unitNG]
    norm_num

end Verif.Props
