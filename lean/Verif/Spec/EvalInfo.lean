import Verif.Spec.Eval
import Mathlib.Analysis.SpecialFunctions.Log.NegMulLog
import Mathlib.Analysis.SpecialFunctions.Log.Base

/-!
# Specification of the information measures

Textbook definitions, in bits, for a table of counts `n` over two finite sets.
-/

namespace Verif.EvalSpec

variable {ι κ : Type}

/-- Entropy of a distribution (with `0 log 0 = 0`). -/
noncomputable def entropy2 (S : Finset ι) (p : ι → ℝ) : ℝ := (∑ x ∈ S, Real.negMulLog (p x)) / Real.log 2

section

variable (A : Finset ι) (P : Finset κ) (n : ι → κ → ℝ)

/-- Total count. -/
noncomputable def tot : ℝ := ∑ u ∈ A, ∑ p ∈ P, n u p

/-- Distribution of the units. -/
noncomputable def margX (u : ι) : ℝ := (∑ p ∈ P, n u p) / tot A P n

/-- Distribution of the phones. -/
noncomputable def margY (p : κ) : ℝ := (∑ u ∈ A, n u p) / tot A P n

/-- Mutual information: the divergence of the joint distribution from the product of the marginals. -/
noncomputable def mutualInfo : ℝ :=
  (∑ u ∈ A, ∑ p ∈ P, n u p / tot A P n *
    Real.log (n u p / tot A P n / (margX A P n u * margY A P n p))) / Real.log 2

/-- Normalised mutual information in percent: by the entropy of the phones (`old`), or by the mean of the
entropies of the units and phones. -/
noncomputable def nmiSpec (old : Bool) : ℝ :=
  if old then 100 * mutualInfo A P n / entropy2 P (margY A P n)
  else 100 * mutualInfo A P n / ((entropy2 A (margX A P n) + entropy2 P (margY A P n)) / 2)

/-- Unit and phone are independent. -/
def Indep : Prop := ∀ u ∈ A, ∀ p ∈ P, n u p * tot A P n = (∑ q ∈ P, n u q) * ∑ v ∈ A, n v p

/-- Every unit goes with a single phone. -/
def Determines : Prop := ∀ u ∈ A, ∀ p ∈ P, ∀ q ∈ P, n u p ≠ 0 → n u q ≠ 0 → p = q

/-- Every phone goes with a single unit. -/
def Determined : Prop := ∀ p ∈ P, ∀ u ∈ A, ∀ v ∈ A, n u p ≠ 0 → n v p ≠ 0 → u = v

end

/-- The table of counts written in nested dictionaries. -/
def tableOf (m : List (String × List (String × ℕ))) (u p : String) : ℕ :=
  (((m.lookup u).getD []).lookup p).getD 0

/-- The units of a table. -/
def units (m : List (String × List (String × ℕ))) : Finset String := (m.map Prod.fst).toFinset

/-- The phones of a table. -/
def phones (m : List (String × List (String × ℕ))) : Finset String :=
  (m.flatMap fun x => x.2.map Prod.fst).toFinset

/-- Nested dictionaries as `maxoverlap_mapping.py` writes them: keys are unique, every unit has a phone and
all the counts are positive. -/
structure ValidCounts (m : List (String × List (String × ℕ))) : Prop where
  outer : (m.map Prod.fst).Nodup
  inner : ∀ x ∈ m, (x.2.map Prod.fst).Nodup ∧ x.2 ≠ []
  pos : ∀ x ∈ m, ∀ y ∈ x.2, 0 < y.2

/-- Relative frequency of a token. -/
noncomputable def freq (tokens : List String) (t : String) : ℝ := tokens.count t / tokens.length

/-- The pairs of states, reference first, of all the frames that both alignments have. -/
def stateFrames (ref hyp : List (String × List ℕ)) : List (ℕ × ℕ) :=
  ref.flatMap fun p => p.2.zip ((hyp.lookup p.1).getD [])

/-- The pairs (group, symbol) of a grouping. -/
def members (groups : List (String × List String)) : List (String × String) :=
  groups.flatMap fun x => x.2.map fun s => (x.1, s)

/-- The group of a symbol. -/
def groupOf (groups : List (String × List String)) (s : String) : String :=
  (((members groups).find? fun y => y.2 = s).map Prod.fst).getD ""

/-- Every symbol seen is in exactly one group, and every group has a symbol that is seen. -/
structure Groups (groups : List (String × List String)) (seen : List String) : Prop where
  once : ((members groups).map Prod.snd).Nodup
  cover : ∀ s ∈ seen, s ∈ (members groups).map Prod.snd
  used : ∀ x ∈ groups, ∃ s ∈ x.2, s ∈ seen

/-- Number of frames with a pair of symbols. -/
def pairCount (pairs : List (String × String)) (r h : String) : ℕ := pairs.count (r, h)

end Verif.EvalSpec
