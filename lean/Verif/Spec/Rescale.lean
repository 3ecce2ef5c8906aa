import Verif.Spec.VBTrain
import Verif.Model.LoopVB

/-!
# Specification vocabulary: the same model for another presentation of the data

Changing the units of the features (an affine map) and renumbering the components of a model must not change what is
learned.  A set of models and its translation *correspond* when they give the same scores up to the renumbering and a
constant, are at the same distance of their priors, and remain translations of each other after a training step.
-/

namespace Verif.VB

open Real Matrix Verif.Dists Verif.DistSpec

variable {X P : Type}

/-- The translation `F` of the parameters of `S` goes with the change `f` of the data and the renumbering `σ`; the change of
units shifts all the log-likelihoods by `c`. -/
structure Corresponds {M : ℕ} (S S' : SetModel X M) (V : S.State → Prop) (V' : S'.State → Prop) (XV : X → Prop) (f : X → X)
    (F : S.State → S'.State) (c : ℝ) (σ : Equiv.Perm (Fin M)) : Prop where
  valid : ∀ st, V st → V' (F st)
  data : ∀ x, XV x → XV (f x)
  llh : ∀ st x v, V st → XV x → S.llh st x = .ok v → S'.llh (F st) (f x) = .ok fun m => v (σ m) + c
  kl : ∀ st, V st → S'.kl (F st) = S.kl st
  step : ∀ st rows scale l st', V st → (∀ r ∈ rows, XV r.1 ∧ ∀ m, 0 ≤ r.2 m) → 0 ≤ scale → 0 < l → l ≤ 1 →
    S.step st rows scale l = .ok st' →
    S'.step (F st) (rows.map fun r => (f r.1, r.2 ∘ σ)) scale l = .ok (F st')

/-- The same for one conjugate parameter. -/
structure ParamCorresponds (fam : Family X P) (V : P → Prop) (XV : X → Prop) (f : X → X) (F : P → P) (c : ℝ) : Prop where
  valid : ∀ p, V p → V (F p)
  data : ∀ x, XV x → XV (f x)
  llh : ∀ (p : CParam P) x v, ParamValid V p → XV x → fam.llh p x = .ok v → fam.llh ⟨F p.prior, F p.post⟩ (f x) = .ok (v + c)
  kl : ∀ p q, V p → V q → fam.kl (F p) (F q) = fam.kl p q
  update : ∀ (p : CParam P) (rows : List (ℝ × X)) scale l p', ParamValid V p → (∀ r ∈ rows, 0 ≤ r.1 ∧ XV r.2) →
    0 ≤ scale → 0 < l → l ≤ 1 →
    fam.update p (vsmul scale (wsum fam.sdim (rows.map fun r => (r.1, fam.stats r.2)))) l = .ok p' →
    fam.update ⟨F p.prior, F p.post⟩ (vsmul scale (wsum fam.sdim (rows.map fun r => (r.1, fam.stats (f r.2))))) l =
      .ok ⟨F p'.prior, F p'.post⟩

/-! ## Changes of units -/

/-- New units for every coordinate: `x_i` becomes `a_i x_i + b_i`. -/
def unitsX {D : ℕ} (a b : Fin D → ℝ) (x : List ℝ) : List ℝ := List.ofFn fun i => a i * x.getD i 0 + b i

/-- The same statement about the mean and the precision, in the new units (`NormalGamma`). -/
def unitsNG {D : ℕ} (a b : Fin D → ℝ) (p : NG ℝ) : NG ℝ :=
  ⟨unitsX a b p.mean, p.scale, p.shape, List.ofFn fun i => a i ^ 2 * p.rates.getD i 0⟩

/-- A vector under `x ↦ A x + b`. -/
def affX {D : ℕ} (A : Matrix (Fin D) (Fin D) ℝ) (b : Fin D → ℝ) (x : List ℝ) : List ℝ :=
  List.ofFn (A *ᵥ (fun i : Fin D => x.getD i 0) + b)

/-- `IsotropicNormalGamma` under a similarity (`Aᵀ A = g`). -/
def affING {D : ℕ} (A : Matrix (Fin D) (Fin D) ℝ) (b : Fin D → ℝ) (g : ℝ) (p : ING ℝ) : ING ℝ :=
  ⟨affX A b p.mean, p.scale, p.shape, g * p.rate⟩

/-- `NormalWishart` under an invertible affine map. -/
noncomputable def affNW {D : ℕ} (A : Matrix (Fin D) (Fin D) ℝ) (b : Fin D → ℝ) (p : NW D) : NW D :=
  ⟨A *ᵥ p.mean + b, p.scale, A⁻¹ᵀ * p.W * A⁻¹, p.dof⟩

/-- The same for parameters of unknown dimension. -/
noncomputable def affNWD {D : ℕ} (A : Matrix (Fin D) (Fin D) ℝ) (b : Fin D → ℝ) (p : Σ D : ℕ, NW D) : Σ D : ℕ, NW D :=
  if h : p.1 = D then ⟨D, affNW A b (h ▸ p.2)⟩ else p

/-! ## Renumberings -/

/-- The weights of renumbered components. -/
def permW {C : ℕ} (σ : Equiv.Perm (Fin C)) (w : List ℝ) : List ℝ := List.ofFn fun k => w.getD (σ k) 0

/-- Prior and posterior translated by the same map. -/
def CParam.tr (F : P → P) (p : CParam P) : CParam P := ⟨F p.prior, F p.post⟩

/-- The graph with its states renumbered. -/
def permGraph {S : ℕ} (σ : Equiv.Perm (Fin S)) (g : CGraph S) : CGraph S :=
  ⟨fun s => g.init (σ s), fun s => g.final (σ s), fun s d => g.trans (σ s) (σ d)⟩

/-- An utterance with its frames changed. -/
def Utt.tr (f : X → X) (u : Utt X) : Utt X := ⟨u.1, fun t => f (u.2 t)⟩

/-- The parameters of a mixture translated, its components renumbered. -/
def MixState.tr {K : ℕ} {inner inner' : SetModel X K} (F : inner.State → inner'.State) (σ : Equiv.Perm (Fin K))
    (st : MixState inner) : MixState inner' := ⟨st.weights.tr (permW σ), F st.comps⟩

/-- A phone loop whose pdfs are renumbered: the pdf of a state is the one that has its number now. -/
def LoopConf.tr {M S P : ℕ} (τ : Equiv.Perm (Fin M)) (conf : LoopConf M S P) : LoopConf M S P :=
  { conf with order := fun s => τ.symm (conf.order s) }

/-- The transitions and the weights stay, the emissions are translated. -/
def LoopState.tr {M S : ℕ} {inner inner' : SetModel X M} (F : inner.State → inner'.State) (st : LoopState inner S) :
    LoopState inner' S := ⟨st.trans, st.weights, F st.comps⟩

/-- A phone loop whose units are numbered in another order. -/
def LoopConf.perm {M S P : ℕ} (ρ : Equiv.Perm (Fin P)) (conf : LoopConf M S P) : LoopConf M S P :=
  { conf with starts := fun j => conf.starts (ρ j) }

/-- The weights of the units in another order; the transitions and the emissions stay. -/
def LoopState.perm {M S P : ℕ} {inner : SetModel X M} (ρ : Equiv.Perm (Fin P)) (st : LoopState inner S) :
    LoopState inner S := ⟨st.trans, st.weights.tr (permW ρ), st.comps⟩

/-- An utterance with its frames changed and the pdfs of its alignment renumbered. -/
def LUtt.tr {M : ℕ} (f : X → X) (τ : Equiv.Perm (Fin M)) (u : LUtt X M) : LUtt X M :=
  ⟨u.frames.tr f, u.ali.map fun g => ⟨g.1, g.2.1, fun s => τ.symm (g.2.2 s)⟩⟩

/-- An argmax that only looks at comparisons does not see a constant added to all the scores. -/
def ShiftInvariant {K : ℕ} (am : Frame K → Fin K) : Prop :=
  ∀ (w : Frame K) (k : ℝ), am (fun i => w i + (k : LogR)) = am w

end Verif.VB
