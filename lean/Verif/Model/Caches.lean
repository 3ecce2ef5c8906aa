import Verif.Model.PhoneLoop

/-!
# Caches of intermediary results

* `beer/models/basemodel.py` 12-28 (`cache`, `clear_cache`)
* their use by `evidence_lower_bound`, `beer/inference/objectives.py` 181-186, and by the phone loops,
  `beer/models/hmm.py` 73-100 and 105-121, `beer/models/phoneloop.py` 83-101.

A module has an identity and children; `modules()` of torch gives every module once, parents first. The caches are a
map from identities.
-/

namespace Verif.Caches

open Verif Verif.PhoneLoop

/-- A torch module; `isModel` is `isinstance(module, Model)`. -/
inductive Mod where
  | mk (id : ℕ) (isModel : Bool) (children : List Mod)

def Mod.id : Mod → ℕ
  | .mk i _ _ => i

def Mod.isModel : Mod → Bool
  | .mk _ b _ => b

def Mod.children : Mod → List Mod
  | .mk _ _ cs => cs

mutual
/-- `named_modules` of torch: what is already in the memo is not given again. The modules and the new memo. -/
def visit : Mod → List ℕ → List Mod × List ℕ
  | .mk i b cs, memo =>
    if i ∈ memo then ([], memo)
    else
      let r := visitAll cs (i :: memo)
      (.mk i b cs :: r.1, r.2)

/-- The children, one after the other. -/
def visitAll : List Mod → List ℕ → List Mod × List ℕ
  | [], memo => ([], memo)
  | c :: cs, memo =>
    let r := visit c memo
    let r' := visitAll cs r.2
    (r.1 ++ r'.1, r'.2)
end

/-- `module.modules()`. -/
def Mod.modules (m : Mod) : List Mod := (visit m []).1

mutual
theorem visit_size (m : Mod) (memo : List ℕ) (x : Mod) (hx : x ∈ (visit m memo).1) :
    x = m ∨ sizeOf x < sizeOf m := by
  match m with
  | .mk i b cs =>
    unfold visit at hx
    split at hx
    · simp at hx
    · rcases List.mem_cons.1 hx with h | h
      · exact .inl h
      · right
        have := visitAll_size cs _ x h
        simp only [Mod.mk.sizeOf_spec]
        omega

theorem visitAll_size (cs : List Mod) (memo : List ℕ) (x : Mod) (hx : x ∈ (visitAll cs memo).1) :
    sizeOf x < sizeOf cs := by
  match cs with
  | [] => simp [visitAll] at hx
  | c :: cs =>
    unfold visitAll at hx
    simp only [List.cons.sizeOf_spec]
    rcases List.mem_append.1 hx with h | h
    · rcases visit_size c memo x h with rfl | h
      · omega
      · omega
    · have := visitAll_size cs _ x h
      omega
end

/-- The caches of the modules: for every identity what the dictionary holds. -/
abbrev Heap (V : Type) := ℕ → List (String × V)

variable {V : Type}

/-- `clear_cache`, `basemodel.py` 24-28. -/
def clearCache (m : Mod) (h : Heap V) : Heap V :=
  m.modules.attach.foldl (fun h x =>
    if _ : x.1.id ≠ m.id then (if x.1.isModel then clearCache x.1 h else h) else h)
    (Function.update h m.id [])
termination_by sizeOf m
decreasing_by
  rcases visit_size m [] x.1 x.2 with h | h
  · exact absurd (congrArg Mod.id h) ‹_›
  · exact h

/-! ## Calls of a phone loop -/

variable {n P : ℕ}

/-- What a program does with a phone loop. -/
inductive Call (n : ℕ) where
  /-- `evidence_lower_bound(model, utt, …)`; `fails` is an exception raised after the evaluation of the log-likelihood
  (by the divergence of the parameters or by `accumulate` of the emissions). -/
  | elbo (u : PUtt n) (fails : Option Err)
  /-- `model.expected_log_likelihood(stats, …)` -/
  | evaluate (u : PUtt n)
  /-- `model.decode(data, …)` or `model.posteriors(data, …)`, `hmm.py` 105-121: the cache of the model is not used -/
  | decode
  /-- `model.clear_cache()` -/
  | clear

/-- One call: the statistics of the weights it gives (none but for `elbo`) and the cache after it. -/
noncomputable def call (starts : Fin P → Fin n) (ends : List (Fin n)) (old : Option (Cache n)) :
    Call n → Except Err (List ℝ) × Option (Cache n)
  | .elbo u none => let r := elboCounts starts ends old u; (.ok r.1, r.2)
  | .elbo u (some e) => (.error e, some (cacheAfter old u))
  | .evaluate u => (.ok [], some (cacheAfter old u))
  | .decode => (.ok [], old)
  | .clear => (.ok [], none)

/-- A program: the results of its calls and the cache at the end. -/
noncomputable def calls (starts : Fin P → Fin n) (ends : List (Fin n)) :
    Option (Cache n) → List (Call n) → List (Except Err (List ℝ)) × Option (Cache n)
  | old, [] => ([], old)
  | old, c :: cs =>
    let r := call starts ends old c
    let r' := calls starts ends r.2 cs
    (r.1 :: r'.1, r'.2)

end Verif.Caches
