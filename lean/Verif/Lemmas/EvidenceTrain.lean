import Mathlib.Topology.Order.MonotoneConvergence
import Mathlib.Topology.Algebra.Order.LiminfLimsup
import Verif.Lemmas.EvidenceModels

/-!
# The evidence along a training, exact evidence of one model, convergence
-/

namespace Verif.VB

open Real MeasureTheory ProbabilityTheory Verif.Dists Verif.DistSpec Filter Topology
open scoped ENNReal

variable {X P : Type}

theorem exact_evidence {fam : Family X P} {V : P → Prop} {XV XV' : X → Prop} (C : Conj fam V XV)
    {G : FamGen X P} (hm : Marg fam V XV' C.base G) (hs : ∀ x, XV' x → XV x) :
    ExactEvidence fam V XV' G := by
  intro c xs hc hx
  obtain ⟨best, a0, a1, e1, e2, e3, e4⟩ := hm.marg c.prior xs hc.1 hx
  have hr : ∀ r ∈ xs.map (fun x => ((1 : ℝ), x)), 0 ≤ r.1 ∧ XV r.2 := by
    intro r h
    obtain ⟨x, h', rfl⟩ := List.mem_map.1 h
    exact ⟨zero_le_one, hs _ (hx x h')⟩
  obtain ⟨best', a0', a1', v, f2, f3, f4, f5⟩ := C.oneStepOptimal c.prior (xs.map fun x => ((1 : ℝ), x))
    1 hc.1 hr zero_le_one
  obtain ⟨_, g1, _⟩ := f5 c.prior hc.1
  rw [g1] at e1
  have hb : best' = best := congrArg CParam.post (Except.ok.inj e1)
  subst hb
  obtain ⟨k, g2, g3, g4, g5⟩ := f5 c.post hc.2
  rw [e2] at f2
  rw [e3] at f3
  have h0 := Except.ok.inj f2
  have h1 := Except.ok.inj f3
  subst h0 h1
  refine ⟨hm.prob _ hc.1, best', _, _, k, ?_, g5, f4, g3, g4, by ring, ?_⟩
  · rw [vsmul_one, List.map_map] at g2
    exact g2
  · rw [e4]
    congr 2
    simp only [List.map_map, Function.comp_def, one_mul]
    simp

/-! ## The evidence does not change -/

theorem mixEvidence_step {K : ℕ} {inner : SetModel X K} {V : inner.State → Prop} {XV : X → Prop}
    {G : SetGen inner.State X K} (hG : Bounds inner V XV G) {st st' : MixState inner} {data : List X}
    {datasize : ℤ} {l : ℝ} (h : mixStep inner st data datasize l = .ok st') (d : List X) :
    mixEvidence G st' d = mixEvidence G st d := by
  unfold mixStep at h
  obtain ⟨s, _, h⟩ := bind_ok h
  obtain ⟨o, _, h⟩ := bind_ok h
  obtain ⟨w, h1, h⟩ := bind_ok h
  obtain ⟨s', h2, h⟩ := bind_ok h
  have e := Except.ok.inj h
  subst e
  unfold mixEvidence
  rw [update_prior h1, hG.step_law _ _ _ _ _ h2]

theorem hmmEvidence_step {S : ℕ} {g : CGraph S} {inner : SetModel X S} {V : inner.State → Prop}
    {XV : X → Prop} {G : SetGen inner.State X S} (hG : Bounds inner V XV G) {st st' : inner.State} {a : ℝ}
    {utts : List (Utt X)} {scale l : ℝ} (h : hmmStep g inner st a utts scale l = .ok st')
    (d : List (Utt X)) : hmmEvidence g G st' d = hmmEvidence g G st d := by
  unfold hmmStep at h
  obtain ⟨o, _, h⟩ := bind_ok h
  unfold hmmEvidence
  rw [hG.step_law _ _ _ _ _ h]

/-! ## Convergence of bounded improvements -/

theorem climb {S : Type} (Q : S → Prop) (step : ℝ → S → Except Err S) (f : S → ℝ) (B : ℝ)
    (hb : ∀ s, Q s → f s ≤ B) (hs : ∀ l s, 0 < l → l ≤ 1 → Q s →
      ∃ s', step l s = .ok s' ∧ Q s' ∧ f s ≤ f s')
    (ls : ℕ → ℝ) (hl : ∀ n, 0 < ls n ∧ ls n ≤ 1) (s0 : S) (h0 : Q s0) :
    ∃ (seq : ℕ → S) (L : ℝ), seq 0 = s0 ∧ (∀ n, step (ls n) (seq n) = .ok (seq (n + 1))) ∧
      (∀ n, Q (seq n)) ∧ Monotone (fun n => f (seq n)) ∧
      Tendsto (fun n => f (seq n)) atTop (𝓝 L) ∧ L ≤ B := by
  choose next h1 h2 h3 using fun (n : ℕ) (s : {s // Q s}) => hs (ls n) s.1 (hl n).1 (hl n).2 s.2
  let seq : ℕ → {s // Q s} := fun n => Nat.rec ⟨s0, h0⟩ (fun n s => ⟨next n s, h2 n s⟩) n
  have hmono : Monotone fun n => f (seq n).1 := monotone_nat_of_le_succ fun n => h3 n (seq n)
  have hbd : BddAbove (Set.range fun n => f (seq n).1) :=
    ⟨B, by rintro _ ⟨n, rfl⟩; exact hb _ (seq n).2⟩
  refine ⟨fun n => (seq n).1, ⨆ n, f (seq n).1, rfl, fun n => h1 n (seq n), fun n => (seq n).2, hmono,
    tendsto_atTop_ciSup hmono hbd, ciSup_le fun n => hb _ (seq n).2⟩

theorem le_log_evidence {v : ℝ} {E : ℝ≥0∞} (h : ENNReal.ofReal (exp v) ≤ E) (hE : E ≠ ⊤) :
    v ≤ log E.toReal := by
  have h1 : exp v ≤ E.toReal := (ENNReal.ofReal_le_iff_le_toReal hE).1 h
  rw [← log_exp v]
  exact log_le_log (exp_pos _) h1

end Verif.VB
