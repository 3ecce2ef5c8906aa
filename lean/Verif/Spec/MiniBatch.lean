import Verif.Model.MiniBatch
import Verif.Spec.VBTrain

/-!
# What training on mini-batches is compared with
-/

namespace Verif.VB

open Real Verif Verif.Dists

variable {X P : Type}

/-- Each batch with its share of the data seen so far as learning rate; `seen` frames were seen before. -/
noncomputable def onlineRates (seen : ℕ) : List (List X) → List (List X × ℝ)
  | [] => []
  | b :: bs => (b, (b.length : ℝ) / ((seen + b.length : ℕ) : ℝ)) :: onlineRates (seen + b.length) bs

/-- `best` is the exact posterior of the data, as if they were a sample of `datasize` frames: no valid posterior has a larger objective. -/
def ExactPosterior (fam : Family X P) (V : P → Prop) (prior : P) (data : List X) (datasize : ℝ) (best : P) : Prop :=
  V best ∧ ∀ q, V q → ∃ a b, paramObjective fam ⟨prior, q⟩ (data.map fun x => (1, x)) (datasize / data.length) = .ok a ∧
    paramObjective fam ⟨prior, best⟩ (data.map fun x => (1, x)) (datasize / data.length) = .ok b ∧ a ≤ b

/-- The batches again and again: `e` whole epochs. -/
def cycles (e : ℕ) (bs : List (List X × ℝ)) : List (List X × ℝ) := (List.replicate e bs).flatten

end Verif.VB
