import Verif.Model.VBTrain
import Verif.Spec.Dists
import Verif.Spec.NormalWishart
import Verif.Spec.HMM

/-!
# Specification vocabulary for variational training: objectives and well-behaved sets of models
-/

namespace Verif.VB

open Real Verif.Dists Verif.DistSpec Verif.Spec

variable {X P : Type}

/-- A number computed by a call that may raise (`0` when it raises). -/
def valueOf {α : Type} (z : α) : Except Err α → α
  | .ok v => v
  | .error _ => z

/-- Both the prior and the posterior are valid. -/
def ParamValid (V : P → Prop) (c : CParam P) : Prop := V c.prior ∧ V c.post

/-- All the parameters of a set are valid. -/
def SetValid {M : ℕ} (V : P → Prop) (st : Fin M → CParam P) : Prop := ∀ m, ParamValid V (st m)

/-- Observations of a Dirichlet: non-negative counts of the `D` categories. -/
def CountsValid (D : ℕ) (x : List ℝ) : Prop := x.length = D ∧ ∀ v ∈ x, 0 ≤ v

/-- The part of the objective which depends on one parameter: `scale` times the expected
log-likelihood of the weighted data, minus the divergence to the prior. -/
noncomputable def paramObjective (fam : Family X P) (c : CParam P) (rows : List (ℝ × X)) (scale : ℝ) :
    Except Err ℝ := do
  let v ← rows.mapM fun r => fam.llh c r.2
  let k ← fam.paramKl c
  .ok (scale * (List.zipWith (fun r e => Prod.fst r * e) rows v).sum - k)

/-- The gain of an update with learning rate `l`: the update succeeds, the objective grows by
`((1 − l) KL(new ‖ old) + KL(old ‖ new)) / l`. -/
def UpdateGain (fam : Family X P) (V : P → Prop) (XV : X → Prop) : Prop :=
  ∀ (c : CParam P) (rows : List (ℝ × X)) (scale l : ℝ), ParamValid V c →
    (∀ r ∈ rows, 0 ≤ r.1 ∧ XV r.2) → 0 ≤ scale → 0 < l → l ≤ 1 →
    ∃ p' g g' k k',
      fam.update c (vsmul scale (wsum fam.sdim (rows.map fun r => (r.1, fam.stats r.2)))) l =
        .ok ⟨c.prior, p'⟩ ∧ V p' ∧
      paramObjective fam c rows scale = .ok g ∧
      paramObjective fam ⟨c.prior, p'⟩ rows scale = .ok g' ∧
      fam.kl p' c.post = .ok k ∧ fam.kl c.post p' = .ok k' ∧ 0 ≤ k ∧ 0 ≤ k' ∧
      g' - g = ((1 - l) * k + k') / l

/-- An update never decreases the objective, and leaves it unchanged exactly when the posterior is
unchanged. -/
def UpdateStrict (fam : Family X P) (V : P → Prop) (XV : X → Prop) : Prop :=
  ∀ (c : CParam P) (rows : List (ℝ × X)) (scale l : ℝ), ParamValid V c →
    (∀ r ∈ rows, 0 ≤ r.1 ∧ XV r.2) → 0 ≤ scale → 0 < l → l ≤ 1 →
    ∃ p' g g',
      fam.update c (vsmul scale (wsum fam.sdim (rows.map fun r => (r.1, fam.stats r.2)))) l =
        .ok ⟨c.prior, p'⟩ ∧
      paramObjective fam c rows scale = .ok g ∧
      paramObjective fam ⟨c.prior, p'⟩ rows scale = .ok g' ∧ g ≤ g' ∧ (g' = g ↔ p' = c.post)

/-- A step of learning rate one reaches, from any posterior, the same posterior `best`.  Its
objective is the difference of the log-normalisers plus the constant `base` of every data point; any
other posterior `q` falls short of it by `KL(q ‖ best)`. -/
def OneStepOptimal (fam : Family X P) (V : P → Prop) (XV : X → Prop) (base : ℝ) : Prop :=
  ∀ (prior : P) (rows : List (ℝ × X)) (scale : ℝ), V prior → (∀ r ∈ rows, 0 ≤ r.1 ∧ XV r.2) →
    0 ≤ scale → ∃ best a0 a1, V best ∧ fam.logNorm prior = .ok a0 ∧ fam.logNorm best = .ok a1 ∧
      paramObjective fam ⟨prior, best⟩ rows scale =
        .ok (a1 - a0 + scale * (rows.map fun r => r.1 * base).sum) ∧
      ∀ q, V q → ∃ k,
        fam.update ⟨prior, q⟩ (vsmul scale (wsum fam.sdim (rows.map fun r => (r.1, fam.stats r.2)))) 1
          = .ok ⟨prior, best⟩ ∧
        fam.kl q best = .ok k ∧ 0 ≤ k ∧
        paramObjective fam ⟨prior, q⟩ rows scale =
          .ok (a1 - a0 + scale * (rows.map fun r => r.1 * base).sum - k)

/-- A well-behaved set of models: on valid parameters the calls succeed, and a step with any
non-negative weights keeps the parameters valid and does not decrease the weighted log-likelihoods
minus the divergence. -/
structure Lawful {M : ℕ} (S : SetModel X M) (V : S.State → Prop) (XV : X → Prop) : Prop where
  llh_ok : ∀ st x, V st → XV x → ∃ v, S.llh st x = .ok v
  kl_ok : ∀ st, V st → ∃ k, S.kl st = .ok k ∧ 0 ≤ k
  step_ok : ∀ st rows scale l, V st → (∀ r ∈ rows, XV r.1 ∧ ∀ m, 0 ≤ r.2 m) → 0 ≤ scale → 0 < l →
    l ≤ 1 → ∃ st', S.step st rows scale l = .ok st' ∧ V st' ∧
      valueOf 0 (S.kl st') - valueOf 0 (S.kl st) ≤
        scale * (rows.map fun r =>
          ∑ m, r.2 m * (valueOf 0 (S.llh st' r.1) m - valueOf 0 (S.llh st r.1) m)).sum

/-- The objective of an HMM with acoustic scale `a`: `scale` times the log-probabilities of the
utterances (sums over all state sequences), minus the divergence of the parameters. -/
noncomputable def hmmObjective {S : ℕ} (g : CGraph S) (inner : SetModel X S) (a : ℝ)
    (utts : List (Utt X)) (scale : ℝ) (st : inner.State) : ℝ :=
  scale * (utts.map fun u =>
    log (evidence g fun t s => ((a * valueOf 0 (inner.llh st (u.2 t)) s : ℝ) : LogR))).sum
    - valueOf 0 (inner.kl st)

/-- The graph has a state sequence of non-zero probability with as many states as the utterance has
frames. -/
def Feasible {S : ℕ} (g : CGraph S) (u : Utt X) : Prop :=
  0 < evidence g fun (_ : Fin (u.1 + 1)) (_ : Fin S) => ((0 : ℝ) : LogR)

end Verif.VB
