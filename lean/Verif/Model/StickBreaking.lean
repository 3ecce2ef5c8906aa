import Verif.Model.DistsReal
import Mathlib.Data.List.FinRange
import Mathlib.Logic.Equiv.Defs
import Mathlib.Algebra.BigOperators.Group.Finset.Basic

/-!
# Stick-breaking categorical models (`beer/models/categorical.py` 82-209)

A tensor with `K` rows is a function on `Fin K`.  The two columns of a stick-breaking tensor are the
two components of a pair.  `self.ordering` is a permutation of the categories: `torch.sort` returns
one, `torch.arange` (the initial value) is the identity.  `torch.sort` is not stable, so the
permutation is only known to sort the counts in decreasing order (`SortsDesc`).
-/

namespace Verif

open Finset Verif.Dists

variable {K : ℕ} {R : Type} [Field R]

/-- What `stats.sort(descending=True)[1]` guarantees about the returned indices, line 111. -/
def SortsDesc [LE R] (stats : Fin K → R) (σ : Equiv.Perm (Fin K)) : Prop :=
  ∀ i j, i ≤ j → stats (σ j) ≤ stats (σ i)

/-- `SBCategorical.reverse_ordering`, lines 133-138: zeros, then one assignment per rank. -/
def reverseOrdering [NeZero K] (ordering : Fin K → Fin K) : Fin K → Fin K :=
  (List.finRange K).foldl (fun r i => Function.update r (ordering i) i) (fun _ => 0)

/-- `cumsum(dim=0)`. -/
def cumsum (x : Fin K → R) : Fin K → R := fun i => ∑ j ∈ univ.filter (· ≤ i), x j

/-- `cumprod(dim=0)`. -/
def cumprod (x : Fin K → R) : Fin K → R := fun i => ∏ j ∈ univ.filter (· ≤ i), x j

/-- `torch.flip(x, dims=(0,))`. -/
def flip0 {α : Type} (x : Fin K → α) : Fin K → α := fun i => x i.rev

/-- `s2 = zeros_like(x); s2[:-1] = x[1:]`, lines 113-114. -/
def shiftUp (x : Fin K → R) : Fin K → R :=
  fun i => if h : i.val + 1 < K then x ⟨i.val + 1, h⟩ else 0

/-- `x[1:] op= y[:-1]`, lines 130 and 146. -/
def onTail (op : R → R → R) (x y : Fin K → R) : Fin K → R :=
  fun i => if h : 0 < i.val then op (x i) (y ⟨i.val - 1, by omega⟩) else x i

/-- `SBCategorical._transform_stats`, lines 109-118, `ordering` being the result of the sort. -/
def sbTransform [NeZero K] (ordering : Fin K → Fin K) (stats : Fin K → R) : Fin K → R × R :=
  let sorted : Fin K → R := fun i => stats (ordering i)
  let s2 := flip0 (cumsum (flip0 (shiftUp sorted)))
  let newStats : Fin K → R × R := fun i => (sorted i, s2 i + sorted i)
  fun k => newStats (reverseOrdering ordering k)

/-- `SBCategorical.mean`, lines 140-147; `eps` is `torch.finfo(c.dtype).eps`. -/
def sbMean [NeZero K] (eps : R) (ordering : Fin K → Fin K) (c : Fin K → R × R) : Fin K → R :=
  let c' : Fin K → R × R := fun i => c (ordering i)
  let norm : Fin K → R := fun i => (c' i).1 + (c' i).2 + eps
  let weights : Fin K → R := fun i => (c' i).1 / norm i
  let residual := cumprod (fun i => (c' i).2 / norm i)
  let weights := onTail (· * ·) weights residual
  fun k => weights (reverseOrdering ordering k)

/-- `SBCategorical._log_v`, lines 120-125. -/
noncomputable def sbLogV (ordering : Fin K → Fin K) (c : Fin K → ℝ × ℝ) :
    (Fin K → ℝ) × (Fin K → ℝ) :=
  let c' : Fin K → ℝ × ℝ := fun i => c (ordering i)
  (fun i => digamma (c' i).1 - digamma ((c' i).1 + (c' i).2),
   fun i => digamma (c' i).2 - digamma ((c' i).1 + (c' i).2))

/-- `SBCategorical._log_prob`, lines 127-131. -/
noncomputable def sbLogProb (ordering : Fin K → Fin K) (c : Fin K → ℝ × ℝ) :
    (Fin K → ℝ) × (Fin K → ℝ) :=
  let lv := sbLogV ordering c
  (onTail (· + ·) lv.1 (cumsum lv.2), lv.2)

/-- `SBCategorical.expected_log_likelihood`, lines 158-160, for one row of `stats`. -/
noncomputable def sbExpLlh [NeZero K] (ordering : Fin K → Fin K) (c : Fin K → ℝ × ℝ)
    (stats : Fin K → ℝ) : ℝ :=
  ∑ k, stats k * (sbLogProb ordering c).1 (reverseOrdering ordering k)

/-! ## Update of the sticks -/

/-- `Dirichlet.natural_parameters` (`dirichlet.py` 144-159) of a row with two columns. -/
def betaNatural (c : R × R) : R × R := (c.1 - 1, (c.1 - 1) + (c.2 - 1))

/-- `DirichletStdParams.from_natural_parameters` (`dirichlet.py` 70-82), row with two columns. -/
def betaFromNatural (n : R × R) : R × R := (n.1 + 1, n.2 - (n.1 + 1 - 1) + 1)

/-- `ConjugateBayesianParameter.natural_grad_update` (`parameters.py` 134-141) on one stick. -/
def betaUpdate (prior post stats : R × R) (lrate : R) : R × R :=
  let p := betaNatural prior
  let q := betaNatural post
  betaFromNatural (q.1 + lrate * (p.1 + stats.1 - q.1), q.2 + lrate * (p.2 + stats.2 - q.2))

/-! ## Hierarchical stick-breaking sets (`beer/models/categoricalset.py` 167-307) -/

/-- One component of the prior built by `_default_set_sb_param` (lines 167-179) and by
`_update_root_sb` (lines 242-256) from the mean weights of the root: `(s * mean_k,
s * (1 - mean.cumsum()_k))`. -/
def sbSetPrior (strength : R) (mean : Fin K → R) : Fin K → R × R :=
  fun k => (strength * mean k, strength * (1 - cumsum mean k))

/-! ## Concentration hyper-prior -/

/-- The state of a `SBCategoricalHyperPrior`: prior and posterior of the sticks, ordering of the
categories, prior and posterior of the concentration. -/
structure SBState (K : ℕ) where
  sbPrior : Fin K → ℝ × ℝ
  sbPost : Fin K → ℝ × ℝ
  ordering : Equiv.Perm (Fin K)
  concPrior : GammaP ℝ
  concPost : GammaP ℝ

/-- `concentration.value()`, the mean of a one-dimensional Gamma (`dists/gamma.py` 119-120). -/
noncomputable def gamValue (p : GammaP ℝ) : List ℝ := List.zipWith (· / ·) p.shape p.rate

/-- `_on_concentration_update`, lines 200-202: the second column of the prior is overwritten by the
(one-element) value. -/
noncomputable def onConcentrationUpdate (s : SBState K) : Except Err (SBState K) :=
  match gamValue s.concPost with
  | [v] => .ok { s with sbPrior := fun k => ((s.sbPrior k).1, v) }
  | _ => .error .runtimeError

/-- `_on_stickbreaking_update`, lines 204-209, followed by the callback of the concentration. -/
noncomputable def onStickbreakingUpdate (s : SBState K) : Except Err (SBState K) :=
  let log1v := (sbLogProb s.ordering s.sbPost).2
  let stats : List ℝ := [∑ i, log1v i, ∑ _i : Fin K, (1 : ℝ)]
  match natGradUpdate gamNatural gamFromNatural s.concPrior s.concPost stats 1 with
  | .error e => .error e
  | .ok post => onConcentrationUpdate { s with concPost := post }

/-- `SBCategoricalHyperPrior.__init__`, lines 193-198. -/
noncomputable def sbInit (sbPrior sbPost : Fin K → ℝ × ℝ) (concPrior concPost : GammaP ℝ) :
    Except Err (SBState K) :=
  onConcentrationUpdate ⟨sbPrior, sbPost, Equiv.refl _, concPrior, concPost⟩

/-- `self.stickbreaking.natural_grad_update(lrate)` with stored counts `stats`: the callback before
the update re-orders the categories and transforms the counts, the sticks are updated, the callback
after the update re-estimates the concentration. -/
noncomputable def sbStep [NeZero K] (s : SBState K) (σ : Equiv.Perm (Fin K)) (stats : Fin K → ℝ)
    (lrate : ℝ) : Except Err (SBState K) :=
  let st := sbTransform σ stats
  onStickbreakingUpdate { s with
    ordering := σ
    sbPost := fun k => betaUpdate (s.sbPrior k) (s.sbPost k) (st k) lrate }

/-- One stored set of counts, the ordering returned by the sort, and the learning rate. -/
structure SBOp (K : ℕ) where
  order : Equiv.Perm (Fin K)
  stats : Fin K → ℝ
  lrate : ℝ

/-- A history of updates. -/
noncomputable def sbRun [NeZero K] : SBState K → List (SBOp K) → Except Err (SBState K)
  | s, [] => .ok s
  | s, op :: ops =>
    match sbStep s op.order op.stats op.lrate with
    | .error e => .error e
    | .ok s' => sbRun s' ops

end Verif
