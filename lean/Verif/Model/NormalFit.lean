import Verif.Model.Create

/-!
# A training step of a Normal model

`evidence_lower_bound(model, data, datasize)` (`inference/objectives.py` 177-190, only the statistics), `backward`
(92-107) and the step of the optimizer (`parameters.py` 134-141), for `Normal` (`models/normal.py` 131-144), which has a single
mean-field group of one parameter.
-/

namespace Verif.VB

open Verif Verif.Dists

variable {D : ℕ}

/-- `scale * acc_stats`: `accumulate`, `models/normal.py` 143-144, `backward`, `inference/objectives.py` 98-105. -/
noncomputable def normalAcc {X P : Type} (fam : Family X P) (data : List X) (scale : ℝ) : List ℝ :=
  vsmul scale (wsum fam.sdim (data.map fun x => (1, fam.stats x)))

/-- A step of the training of a `Normal`. -/
noncomputable def normalStep (m : NormalParam) (data : List (Fin D → ℝ)) (datasize : ℤ) (lrate : ℝ) :
    Except Err NormalParam := do
  let scale ← batchScale data.length datasize
  match m with
  | .full p => do
    let p' ← (nwFam D).update p (normalAcc (nwFam D) data scale) lrate
    .ok (.full p')
  | .diagonal p => do
    let p' ← (ngFam D).update p (normalAcc (ngFam D) (data.map List.ofFn) scale) lrate
    .ok (.diagonal p')
  | .isotropic p => do
    let p' ← (ingFam D).update p (normalAcc (ingFam D) (data.map List.ofFn) scale) lrate
    .ok (.isotropic p')

end Verif.VB
