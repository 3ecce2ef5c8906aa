import Verif.Model.VBTrain
import Verif.Spec.Dists

/-!
# Specification vocabulary for labels
-/

namespace Verif.VB

open Real Verif.Dists

/-- The class a label stands for among `K`: negative labels count from the end. -/
def labelClass (K : ℕ) (label : ℤ) : Option (Fin K) :=
  if h : 0 ≤ label ∧ label < K then some ⟨label.toNat, by omega⟩
  else if h : -K ≤ label ∧ label < 0 then some ⟨(label + K).toNat, by omega⟩
  else none

/-- How much the frames of a batch count. -/
noncomputable def batchFactor (n : ℕ) (datasize : ℤ) : ℝ :=
  if datasize ≤ 0 then 1 else (datasize : ℝ) / n

/-- The expected logarithm of a weight under a Dirichlet distribution. -/
noncomputable def expLogWeight (c : List ℝ) (k : ℕ) : ℝ := digamma (c.getD k 0) - digamma c.sum

/-- The labels are those of the pairs. -/
def Labels {X : Type} {K : ℕ} (pairs : List (X × Fin K)) (labels : List ℤ) : Prop :=
  labels.map (labelClass K) = pairs.map fun p => some p.2

/-- The number of pairs of a class. -/
def classCount {X : Type} {K : ℕ} (pairs : List (X × Fin K)) (k : Fin K) : ℕ := pairs.countP fun p => p.2 = k

end Verif.VB
