import Verif.Model.Eval
import Mathlib.Analysis.SpecialFunctions.Log.Base
import Mathlib.Algebra.BigOperators.Group.Finset.Basic

/-!
# Evaluation scripts of the recipes: information measures

* `recipes/aud/utils/nmi.py`, `recipes/aud/utils/entropy_rate.py` (identical in `recipes/hshmm/utils`)
* `recipes/timit_v2/utils/compare-alignments.py` 50-86 and `mutual-information.py` 31-58

Matrices are indexed by the names of the units and phones instead of their position in a list made from a
set: exact sums do not depend on the order.  A division by zero, which prints `nan`, is Lean's: the theorems
exclude it.
-/

namespace Verif.Eval

open Verif Pipeline Scoring

/-! ## `nmi.py` -/

/-- `au_set`, `nmi.py` 19-25. -/
def auSet (m : Counts) : Finset String := (m.map Prod.fst).toFinset

/-- `phone_set`, `nmi.py` 20-26. -/
def phoneSet (m : Counts) : Finset String := (m.flatMap fun x => x.2.map Prod.fst).toFinset

/-- `counts`, `nmi.py` 29-33. -/
noncomputable def countsMatrix (eps : ℝ) (m : Counts) : String → String → ℝ :=
  m.foldl (fun c x => x.2.foldl
    (fun c y a p => if a = x.1 ∧ p = y.1 then c a p + (y.2 : ℝ) else c a p) c) fun _ _ => eps

section

variable (eps : ℝ) (A P : Finset String) (c : String → String → ℝ)

/-- `p_X`, `nmi.py` 35. -/
noncomputable def pX (u : String) : ℝ := (∑ p ∈ P, c u p) / ∑ u ∈ A, ∑ p ∈ P, c u p

/-- `p_Y`, `nmi.py` 36. -/
noncomputable def pY (p : String) : ℝ := (∑ u ∈ A, c u p) / ∑ u ∈ A, ∑ p ∈ P, c u p

/-- `p_X_Y`, `nmi.py` 37. -/
noncomputable def pXY (u p : String) : ℝ := c u p / ∑ u ∈ A, ∑ p ∈ P, c u p

/-- `p_Y_given_X`, `nmi.py` 38. -/
noncomputable def pYgX (u p : String) : ℝ := c u p / ∑ p ∈ P, c u p

/-- `H_X`, `nmi.py` 41. -/
noncomputable def hX : ℝ := - ∑ u ∈ A, pX A P c u * Real.logb 2 (pX A P c u + eps)

/-- `H_Y`, `nmi.py` 42. -/
noncomputable def hY : ℝ := - ∑ p ∈ P, pY A P c p * Real.logb 2 (pY A P c p + eps)

/-- `H_Y_given_X`, `nmi.py` 43. -/
noncomputable def hYgX : ℝ := - ∑ u ∈ A, ∑ p ∈ P, pXY A P c u p * Real.logb 2 (pYgX P c u p)

/-- The number printed, `nmi.py` 48-51. -/
noncomputable def nmiMatrix (old : Bool) : ℝ :=
  if old then 100 * (hY eps A P c - hYgX A P c) / hY eps A P c
  else 200 * (hY eps A P c - hYgX A P c) / (hY eps A P c + hX eps A P c)

end

/-- `nmi.py` 18-51 with `eps` for `1e-37`. -/
noncomputable def nmiWith (eps : ℝ) (old : Bool) (m : Counts) : ℝ :=
  nmiMatrix eps (auSet m) (phoneSet m) (countsMatrix eps m) old

/-- `nmi.py` 18-51. -/
noncomputable def nmi (old : Bool) (m : Counts) : ℝ := nmiWith 1e-37 old m

/-! ## `entropy_rate.py` -/

/-- `load_transcript`, `entropy_rate.py` 10-16. -/
def loadMerged : List (List String) → Transcript → Except Err Transcript
  | [], tr => .ok tr
  | [] :: _, _ => .error .indexError
  | (utt :: tokens) :: lines, tr => loadMerged lines (dictSet tr utt (collapse tokens))

/-- `counts`, `entropy_rate.py` 26-29. -/
def tokenCounts (tr : Transcript) : List (String × ℕ) :=
  tr.foldl (fun d p => p.2.foldl (fun d t => dictSet d t (getOr d t 0 + 1)) d) []

/-- `entropy`, `entropy_rate.py` 31-33. -/
noncomputable def entropyRate (tr : Transcript) : ℝ :=
  let prob := (tokenCounts tr).map fun p => (p.2 : ℝ)
  let prob := prob.map (· / prob.sum)
  let entropy := -(prob.map fun x => x * Real.logb 2 x).sum
  entropy

/-- The second number printed, `entropy_rate.py` 36. -/
noncomputable def perplexity (tr : Transcript) : ℝ := (2 : ℝ) ^ entropyRate tr

/-! ## `compare-alignments.py` -/

section

variable {F : Type} [Field F]

/-- `d[k] += v` for a `defaultdict` whose default is `eps`. -/
def addTo (eps : F) (d : List (String × F)) (k : String) (v : F) : List (String × F) :=
  dictSet d k (getOr d k eps + v)

/-- `joint_counts`, `ref_counts` and `hyp_counts`. -/
structure Tables (F : Type) where
  joint : List (String × List (String × F))
  ref : List (String × F)
  hyp : List (String × F)
deriving DecidableEq

/-- `compare-alignments.py` 62-67. -/
def compareFrames (eps : F) (refMap hypMap : List (ℕ × String)) :
    List (ℕ × ℕ) → Tables F → Except Err (Tables F)
  | [], t => .ok t
  | (r, h) :: frames, t =>
    match dictGet refMap r, dictGet hypMap h with
    | .ok refSym, .ok hypSym =>
      compareFrames eps refMap hypMap frames
        ⟨dictSet t.joint refSym (addTo eps (getOr t.joint refSym []) hypSym 1),
         addTo eps t.ref refSym 1, addTo eps t.hyp hypSym 1⟩
    | .error e, _ => .error e
    | _, .error e => .error e

/-- `compare-alignments.py` 53-67: `hypAli` is the value of the variable `hyp_ali`, which keeps the value
it had when the utterance is missing. -/
def compareAlis (eps : F) (refMap hypMap : List (ℕ × String)) (hypAlis : List (String × List ℕ)) :
    List (String × List ℕ) → Option (List ℕ) → Tables F → Except Err (Tables F)
  | [], _, t => .ok t
  | (file, refAli) :: refs, hypAli, t =>
    let hypAli := match hypAlis.find? (fun p => p.1 = file) with
      | some p => some p.2
      | none => hypAli
    match hypAli with
    | none => .error .nameError
    | some h =>
      match compareFrames eps refMap hypMap (refAli.zip h) t with
      | .error e => .error e
      | .ok t => compareAlis eps refMap hypMap hypAlis refs hypAli t

/-- The body of the loop of `compare-alignments.py` 80-84; reading a missing entry of a `defaultdict`
gives its default. -/
def groupSym (eps : F) (t : Tables F) (name : String) (g : List (String × List (String × F)) × List (String × F))
    (refSym : String) : List (String × List (String × F)) × List (String × F) :=
  ((getOr t.joint refSym []).foldl (fun j y => dictSet j name (addTo eps (getOr j name []) y.1 y.2)) g.1,
   addTo eps g.2 name (getOr t.ref refSym eps))

/-- `compare-alignments.py` 77-86. -/
def groupTables (eps : F) (groups : List (String × List String)) (t : Tables F) : Tables F :=
  let g := groups.foldl (fun g x => x.2.foldl (groupSym eps t x.1) g) ([], [])
  ⟨g.1, g.2, t.hyp⟩

/-- `compare-alignments.py` 50-86. -/
def compareMain (eps : F) (groups : Option (List (String × List String)))
    (refMap hypMap : List (ℕ × String)) (refAlis hypAlis : List (String × List ℕ)) :
    Except Err (Tables F) :=
  match compareAlis eps refMap hypMap hypAlis refAlis none ⟨[], [], []⟩ with
  | .error e => .error e
  | .ok t => .ok (match groups with | none => t | some g => groupTables eps g t)

end

/-! ## `mutual-information.py` -/

/-- `d[k] /= total` for all keys, `mutual-information.py` 32-37 and 39-41. -/
noncomputable def normalised (d : List (String × ℝ)) : List (String × ℝ) :=
  let total := (d.map Prod.snd).sum
  d.map fun p => (p.1, p.2 / total)

/-- `H_X` and `H_Y`, `mutual-information.py` 48-49. -/
noncomputable def entropyBits (d : List (String × ℝ)) : ℝ :=
  (d.map fun p => - p.2 * Real.log p.2).sum / Real.log 2

/-- `H_X_given_Y`, `mutual-information.py` 50-54. -/
noncomputable def condEntropyBits (pY : List (String × ℝ)) (joint : List (String × List (String × ℝ))) : ℝ :=
  (pY.map fun y => y.2 * ((normalised (getOr joint y.1 [])).map fun p => - p.2 * Real.log p.2).sum).sum /
    Real.log 2

/-- The mutual information printed, `mutual-information.py` 31-57. -/
noncomputable def miBits (t : Tables ℝ) : ℝ :=
  entropyBits (normalised t.hyp) - condEntropyBits (normalised t.ref) t.joint

/-- The percentage printed, `mutual-information.py` 58. -/
noncomputable def miPercent (t : Tables ℝ) : ℝ := 100 * miBits t / entropyBits (normalised t.ref)

end Verif.Eval
