import Verif.Model.SBTrain

/-!
# Variational training of stick-breaking weights with a hyper-prior over the concentration

`SBCategoricalHyperPrior`, `beer/models/categorical.py` 30-35 and 166-209.  The mean-field factorization is the one of
`SBCategorical` (155-156): it does not list the concentration, which is updated by the callback of the sticks only.
-/

namespace Verif.VB

open Verif.Dists

variable {K : ℕ}

/-- `SBCategoricalHyperPrior.create`, `categorical.py` 172-191 with `_default_concentration_param`, 30-35. -/
noncomputable def hypCreate (K : ℕ) (strength hyper : ℝ) : Except Err (SBState K) :=
  sbInit (fun _ => (1, strength)) (fun _ => (1, strength)) ⟨[hyper], [hyper / strength]⟩ ⟨[hyper], [hyper / strength]⟩

/-- The sticks. -/
def sticksOf (s : SBState K) : SBCat K := ⟨s.sbPrior, s.sbPost, s.ordering⟩

/-- `evidence_lower_bound(model, data, datasize).value`, `objectives.py` 177-185: the divergence is the one of the parameters
of the mean-field factorization (`basemodel.py` 51-77), the sticks. -/
noncomputable def hypElbo [NeZero K] (s : SBState K) (data : List (Fin K → ℝ)) (datasize : ℤ) : Except Err ℝ :=
  (sticksOf s).elbo data datasize

/-- `elbo.backward(); optim.step()`: accumulation, update of the sticks with its callbacks. -/
noncomputable def hypStep [NeZero K] (sort : (Fin K → ℝ) → Equiv.Perm (Fin K)) (s : SBState K) (data : List (Fin K → ℝ))
    (datasize : ℤ) (lrate : ℝ) : Except Err (SBState K) := do
  let scale ← batchScale data.length datasize
  let n : Fin K → ℝ := fun k => scale * (data.map fun x => x k).sum
  sbStep s (sort n) n lrate

/-- A training with learning rate one: one step per batch. -/
noncomputable def hypTrain [NeZero K] (sort : (Fin K → ℝ) → Equiv.Perm (Fin K)) (datasize : ℤ) :
    SBState K → List (List (Fin K → ℝ)) → Except Err (SBState K)
  | s, [] => .ok s
  | s, d :: ds =>
    match hypStep sort s d datasize 1 with
    | .error e => .error e
    | .ok s' => hypTrain sort datasize s' ds

end Verif.VB
