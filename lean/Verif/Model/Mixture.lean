import Verif.Model.DistsReal
import Verif.Model.Utils
import Mathlib.Algebra.BigOperators.Fin

/-!
# `beer/models/mixture.py`, `beer/models/mixtureset.py` (evaluation and accumulation)

Component log-likelihoods and expected log-weights are finite reals; one frame at a time.
-/

namespace Verif.Mixture

open Real Verif.Dists

/-- What `expected_log_likelihood` stores in the cache and returns, for one frame. -/
structure LocalOut (K : ℕ) where
  resps : Fin K → ℝ
  value : ℝ

/-- `_local_kl_divergence`, `mixture.py:50-52`. -/
noncomputable def localKl {K : ℕ} (logResps logWeights : Fin K → ℝ) : ℝ :=
  ∑ k, exp (logResps k) * (logResps k - logWeights k)

/-- `expected_log_likelihood` without labels, `mixture.py:70-93`, one frame. -/
noncomputable def mixLocal {K : ℕ} (logWeights llh : Fin K → ℝ) : LocalOut K :=
  let w := fun k => llh k + logWeights k
  let lnorm := log (∑ k, exp (w k))
  let logResps := fun k => w k - lnorm
  let resps := fun k => exp (logResps k)
  let kl := localKl logResps logWeights
  ⟨resps, (∑ k, llh k * resps k) - kl⟩

/-- `expected_log_likelihood` with a label, `mixture.py:84-93`, one frame. -/
noncomputable def mixLabelled (llh : List ℝ) (label : ℤ) : Except Err (List ℝ × ℝ) :=
  match Utils.onehotRow llh.length label with
  | .error e => .error e
  | .ok row =>
    let resps := row.map (fun n : ℕ => (n : ℝ))
    .ok (resps, (List.zipWith (· * ·) llh resps).sum - 0)

/-- `_log_weights`, `mixture.py:45-48`: the expected log-likelihood of every row of the identity. -/
noncomputable def mixLogWeights (c : List ℝ) : Fin c.length → ℝ :=
  fun k => catExpLlh c (List.ofFn fun j : Fin c.length => if j = k then 1 else 0)

/-- `accumulate`, `mixture.py:95-102`: the statistics of the categorical (`categorical.py:78-79` and
`dirichlet.py:18-21`) for the cached responsibilities of the frames. -/
noncomputable def mixCatStats {K : ℕ} (resps : List (Fin K → ℝ)) : List ℝ :=
  wsum K (resps.map fun r => (1, catStats (List.ofFn r)))

/-! ## Mixture sets -/

/-- Position of component `c` of mixture `m` in the flat model set, `reshape(-1, M, C)`. -/
def flatIdx {M C : ℕ} (m : Fin M) (c : Fin C) : Fin (M * C) :=
  ⟨m * C + c, by
    have h1 : (m.1 + 1) * C ≤ M * C := Nat.mul_le_mul_right _ m.2
    have h2 := c.2
    rw [Nat.add_mul, Nat.one_mul] at h1
    omega⟩

/-- `expected_log_likelihood`, `mixtureset.py:85-98`, one frame: for every mixture the responsibilities
stored in the cache and the log-likelihood returned. -/
noncomputable def mixSetLocal {M C : ℕ} (logWeights : Fin M → Fin C → ℝ) (llh : Fin (M * C) → ℝ)
    (m : Fin M) : LocalOut C :=
  let w := fun c => llh (flatIdx m c) + logWeights m c
  let lognorm := log (∑ c, exp (w c))
  ⟨fun c => exp (w c - lognorm), lognorm⟩

/-- `jointresps`, `mixtureset.py:101-102`. -/
def jointResps {M C : ℕ} (mResps : Fin M → Fin C → ℝ) (resps : Fin M → ℝ) (m : Fin M) (c : Fin C) : ℝ :=
  mResps m c * resps m

/-- `totalresps = jointresps.reshape(-1, M * C)`, `mixtureset.py:103`: the responsibilities given to the
model set. -/
def totalResps {M C : ℕ} (mResps : Fin M → Fin C → ℝ) (resps : Fin M → ℝ) (i : Fin (M * C)) : ℝ :=
  jointResps mResps resps ⟨i / C, Nat.div_lt_of_lt_mul (Nat.mul_comm M C ▸ i.2)⟩
    ⟨i % C, Nat.mod_lt _ (Nat.pos_of_mul_pos_left (Nat.lt_of_le_of_lt (Nat.zero_le _) i.2))⟩

/-- The statistics of the weights of mixture `m` for one frame, `mixtureset.py:104-107`. -/
noncomputable def mixSetCatStats {M C : ℕ} (mResps : Fin M → Fin C → ℝ) (resps : Fin M → ℝ)
    (m : Fin M) : List ℝ := catStats (List.ofFn (jointResps mResps resps m))

end Verif.Mixture
