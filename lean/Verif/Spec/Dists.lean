import Mathlib.Algebra.Order.Field.Basic
import Verif.Model.Dists

/-!
# Specification vocabulary for the conjugate updates

Textbook quantities written directly on the data: the data are pairs (weight, vector).
-/

namespace Verif.DistSpec

open Verif.Dists

variable {K : Type*} [Field K]

/-- `Σ_n r_n`. -/
def count (data : List (K × List K)) : K := (data.map fun d => d.1).sum

/-- `Σ_n r_n x_{n,i}`. -/
def first (data : List (K × List K)) (i : ℕ) : K := (data.map fun d => d.1 * d.2.getD i 0).sum

/-- `Σ_n r_n x_{n,i}²`. -/
def second (data : List (K × List K)) (i : ℕ) : K :=
  (data.map fun d => d.1 * d.2.getD i 0 ^ 2).sum

/-- All observations have dimension `D`. -/
def DataDim (D : ℕ) (data : List (K × List K)) : Prop := ∀ d ∈ data, d.2.length = D

section order
variable [LinearOrder K]

/-- The weights (responsibilities) are non-negative. -/
def NonnegWeights (data : List (K × List K)) : Prop := ∀ d ∈ data, 0 ≤ d.1

/-- Valid Dirichlet concentrations. -/
def DirValid (D : ℕ) (c : List K) : Prop := c.length = D ∧ ∀ x ∈ c, 0 < x

/-- Valid Gamma parameters. -/
def GamValid (D : ℕ) (p : GammaP K) : Prop :=
  p.shape.length = D ∧ p.rate.length = D ∧ (∀ x ∈ p.shape, 0 < x) ∧ ∀ x ∈ p.rate, 0 < x

/-- Valid Normal-Gamma parameters. -/
def NGValid (D : ℕ) (p : NG K) : Prop :=
  p.mean.length = D ∧ p.rates.length = D ∧ 0 < p.scale ∧ 0 < p.shape ∧ ∀ x ∈ p.rates, 0 < x

/-- Valid isotropic Normal-Gamma parameters. -/
def INGValid (D : ℕ) (p : ING K) : Prop :=
  p.mean.length = D ∧ 0 < p.scale ∧ 0 < p.shape ∧ 0 < p.rate

end order

end Verif.DistSpec
