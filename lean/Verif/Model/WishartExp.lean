import Verif.Model.NormalWishart

/-!
# Expected statistics, log-normaliser and KL divergence of the Normal-Wishart

`beer/dists/normalwishart.py` 170-236 and `beer/dists/basedist.py` 243-263, one distribution at a
time, exact real arithmetic.
-/

namespace Verif.Dists

open Real

/-- `L` is a Cholesky factor of `M`: lower triangular, positive diagonal, and `L Lᵀ` has the lower
triangle of `M` (the upper triangle of `M` is never read). -/
def IsCholesky {D : ℕ} (M L : Matrix (Fin D) (Fin D) ℝ) : Prop :=
  (∀ i j, i < j → L i j = 0) ∧ (∀ i, 0 < L i i) ∧ ∀ i j, j ≤ i → (L * L.transpose) i j = M i j

open Classical in
/-- `torch.cholesky(M, upper=False)`: raises when there is no such factor. -/
noncomputable def tcholesky {D : ℕ} (M : Matrix (Fin D) (Fin D) ℝ) :
    Except Err (Matrix (Fin D) (Fin D) ℝ) :=
  if h : ∃ L, IsCholesky M L then .ok h.choose else .error .runtimeError

/-- `logdet`, lines 195-197 and 229-231. -/
noncomputable def nwLogdet {D : ℕ} (W : Matrix (Fin D) (Fin D) ℝ) : Except Err ℝ :=
  match tcholesky W with
  | .error e => .error e
  | .ok L => .ok (2 * ∑ i, log (L i i))

/-- `NormalWishart.expected_sufficient_statistics`, lines 170-210.  `idxs` runs from `1` to `dim`. -/
noncomputable def nwExpStats {D : ℕ} (p : NW D) : Except Err (List ℝ) :=
  match nwLogdet p.W with
  | .error e => .error e
  | .ok logdet =>
    let expPrec : Matrix (Fin D) (Fin D) ℝ := p.dof • p.W
    .ok (List.ofFn (expPrec.mulVec p.mean) ++ flat expPrec ++
      [(D : ℝ) / p.scale + ∑ i, ∑ j, expPrec i j * outer p.mean i j,
       (∑ i : Fin D, digamma ((1/2) * (p.dof + 1 - ((i : ℝ) + 1)))) + (D : ℝ) * log 2 + logdet])

/-- `NormalWishart.log_norm`, lines 219-236. -/
noncomputable def nwLogNorm {D : ℕ} (p : NW D) : Except Err ℝ :=
  match nwLogdet p.W with
  | .error e => .error e
  | .ok logdet =>
    .ok ((1/2) * p.dof * logdet + (1/2) * p.dof * (D : ℝ) * log 2
      + (1/4) * (D : ℝ) * ((D : ℝ) - 1) * log π
      + (∑ i : Fin D, lgamma ((1/2) * (p.dof + 1 - ((i : ℝ) + 1))))
      - (1/2) * (D : ℝ) * log p.scale + (1/2) * (D : ℝ) * log (2 * π))

/-- `NormalWishart.expected_value`, lines 212-217. -/
def nwExpValue {D : ℕ} (p : NW D) : (Fin D → ℝ) × Matrix (Fin D) (Fin D) ℝ := (p.mean, p.dof • p.W)

/-- `kl_div` (`basedist.py` 243-263) of two Normal-Wishart objects. -/
noncomputable def nwKl {D D' : ℕ} (p : NW D) (q : NW D') : Except Err ℝ :=
  if D ≠ D' then .error .dimMismatch
  else do
    let n1 ← nwNatural p
    let n2 ← nwNatural q
    let t ← nwExpStats p
    let a1 ← nwLogNorm p
    let a2 ← nwLogNorm q
    .ok (a2 - a1 - vdot t (vsub n2 n1))

end Verif.Dists
