import Mathlib.Data.List.Chain
import Mathlib.Algebra.Order.Group.Unbundled.Abs
import Mathlib.Algebra.Order.Group.Int

/-!
# Specification of the scoring measures

Edit distance through single edit operations at arbitrary positions, matchings of boundaries, frame
labels as labels with durations.
-/

namespace Verif.Spec

variable {α : Type}

/-- One insertion, deletion or substitution, anywhere in the sequence. -/
inductive Edit : List α → List α → Prop
  | insertion (p s : List α) (x : α) : Edit (p ++ s) (p ++ x :: s)
  | deletion (p s : List α) (x : α) : Edit (p ++ x :: s) (p ++ s)
  | substitution (p s : List α) (x y : α) : Edit (p ++ x :: s) (p ++ y :: s)

/-- `Edits n a b`: `a` can be turned into `b` with `n` edit operations. -/
inductive Edits : ℕ → List α → List α → Prop
  | refl (a : List α) : Edits 0 a a
  | step {n : ℕ} {a b c : List α} : Edit a b → Edits n b c → Edits (n + 1) a c

/-- A one-to-one matching, by position, of reference and hypothesised boundaries that are at most `delta`
apart. -/
structure Matching (ref hyp : List ℤ) (delta : ℤ) (M : List (ℕ × ℕ)) : Prop where
  ref_once : (M.map Prod.fst).Nodup
  hyp_once : (M.map Prod.snd).Nodup
  close : ∀ p ∈ M, ∃ r b, ref[p.1]? = some r ∧ hyp[p.2]? = some b ∧ |b - r| ≤ delta

/-- No further pair can be added to the matching. -/
def MaximalMatching (ref hyp : List ℤ) (delta : ℤ) (M : List (ℕ × ℕ)) : Prop :=
  ∀ i j r b, ref[i]? = some r → hyp[j]? = some b → i ∉ M.map Prod.fst → j ∉ M.map Prod.snd →
    delta < |b - r|

/-- Frame labels: every label is repeated for its duration (at least one frame: `d + 1`). -/
def expand (segments : List (α × ℕ)) : List α :=
  segments.flatMap (fun p => List.replicate (p.2 + 1) p.1)

/-- No two neighbours are equal. -/
def NoRepeat (l : List α) : Prop := l.IsChain (· ≠ ·)

end Verif.Spec
