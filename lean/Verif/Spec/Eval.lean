import Mathlib.Data.List.Destutter
import Mathlib.Data.Set.Basic
import Mathlib.Data.String.Basic

/-!
# Specification of the evaluation of transcriptions

Dictionaries are association lists read with `List.lookup`.
-/

namespace Verif.EvalSpec

/-- What a transcription file says of an utterance: the last line that starts with its name. -/
def saidOf (lines : List (List String)) (utt : String) : Option (List String) :=
  (lines.reverse.find? fun l => l.head? = some utt).map List.tail

/-- The two fields of a line, when there are exactly two. -/
def twoFields : List String → Option (String × String)
  | [a, b] => some (a, b)
  | _ => none

/-- What a mapping file says of a token: the last line made of the token and one other field. -/
def mapsTo (lines : List (List String)) (token : String) : Option String :=
  (lines.filterMap twoFields).reverse.lookup token

/-- The tokens that are compared: mapped (those without image are left out), then without repetitions. -/
def prepared (mapping : Option (List (String × String))) (merge : Bool) (tokens : List String) :
    List String :=
  let mapped := match mapping with
    | none => tokens
    | some m => tokens.filterMap fun t => m.lookup t
  if merge then mapped.destutter (· ≠ ·) else mapped

/-- The tokens that the TIMIT script compares: those of `remove` are left out before and after the
mapping. -/
def scored (remove : Option (List String)) (duplicate : String)
    (phoneMap : Option (List (String × String))) (tokens : List String) : List String :=
  let out := remove.getD []
  let kept := match phoneMap with
    | none => tokens.filter fun t => t ∉ out
    | some m => (tokens.filter fun t => t ∉ out).filterMap fun t => (m.lookup t).filter fun p => p ∉ out
  if duplicate = "no" then kept.destutter (· ≠ ·) else kept

/-- All the tokens to be mapped have an image. -/
def Mapped (remove : Option (List String)) (phoneMap : Option (List (String × String)))
    (tokens : List String) : Prop :=
  ∀ m, phoneMap = some m → ∀ t ∈ tokens, t ∉ remove.getD [] → m.lookup t ≠ none

/-- The utterances of the reference that have a hypothesis, with both sequences. -/
def common (ref hyp : List (String × List String)) : List (List String × List String) :=
  ref.filterMap fun p => (hyp.lookup p.1).map fun h => (p.2, h)

/-- The pairs of labels, reference first, of all the frames that both alignments have. -/
def framePairs (ref hyp : List (String × List String)) : List (String × String) :=
  (common ref hyp).flatMap fun p => p.1.zip p.2

/-- Number of frames where unit `u` is proposed and the reference is `p`. -/
def overlap (ref hyp : List (String × List String)) (u p : String) : ℕ :=
  (framePairs ref hyp).countP fun x => x.2 = u ∧ x.1 = p

/-- Number of frames where the phone given by `g` for the proposed unit is the reference. -/
def agreement (ref hyp : List (String × List String)) (g : String → String) : ℕ :=
  (framePairs ref hyp).countP fun x => g x.2 = x.1

end Verif.EvalSpec
