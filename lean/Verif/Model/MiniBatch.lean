import Verif.Model.VBTrain

/-!
# Training a model of one parameter on mini-batches

`evidence_lower_bound(model, batch, datasize)` (`beer/inference/objectives.py` 177-190), `backward` (92-107) and
`VBConjugateOptimizer.step` (`beer/inference/optimizers.py` 27-31) for a model without latent variables and with one parameter: `Normal`
(`beer/models/normal.py` 133-144) or `Categorical` (`beer/models/categorical.py` 64-79).
-/

namespace Verif.VB

open Real Verif Verif.Dists

variable {X P : Type}

/-- The value of the objective, `objectives.py` 177-184. -/
noncomputable def miniElbo (fam : Family X P) (c : CParam P) (batch : List X) (datasize : ℤ) : Except Err ℝ := do
  let scale ← batchScale batch.length datasize
  let v ← batch.mapM (fam.llh c)
  let kl ← fam.paramKl c
  .ok (scale * v.sum - kl)

/-- The objective, `accumulate` (`beer/models/normal.py` 143-144: the sum of the rows), the scaling of `objectives.py` 98-105 and
`natural_grad_update`. -/
noncomputable def miniStep (fam : Family X P) (c : CParam P) (batch : List X) (datasize : ℤ) (lrate : ℝ) : Except Err (CParam P) := do
  let _ ← miniElbo fam c batch datasize
  let scale ← batchScale batch.length datasize
  fam.update c (vsmul scale (wsum fam.sdim (batch.map fun x => (1, fam.stats x)))) lrate

/-- A training: batches with the learning rates of their updates. -/
noncomputable def miniTrain (fam : Family X P) (datasize : ℤ) : CParam P → List (List X × ℝ) → Except Err (CParam P)
  | c, [] => .ok c
  | c, (b, l) :: rest => do
    let c' ← miniStep fam c b datasize l
    miniTrain fam datasize c' rest

end Verif.VB
