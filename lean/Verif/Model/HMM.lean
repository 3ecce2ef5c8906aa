import Verif.Model.LogDomain
import Verif.Model.Py

/-!
# Inference on compiled graphs (`beer/graph.py`, class `CompiledGraph`)

Tensors `[N, K]` are functions `Fin N → Fin K → LogR`.  The Python loops
`for i in range(1, N): x[i] = f(x[i-1])` are `Fin.induction`, the reversed ones
`Fin.reverseInduction`.
-/

namespace Verif

variable {K n : ℕ}

/-- A row (one frame) of a log-domain table over the `K` states. -/
abbrev Frame (K : ℕ) := Fin K → LogR

/-- `beer/graph.py:243-260` the buffers of a `CompiledGraph`. -/
structure CGraph (K : ℕ) where
  init : Frame K
  final : Frame K
  trans : Fin K → Fin K → LogR

/-- `beer/graph.py:270-278` `_baum_welch_forward`:
`log_alphas[0] = llhs[0] + init`, then
`log_alphas[i] = llhs[i] + logsumexp(log_alphas[i-1] + log_trans_mat.t(), dim=1)`. -/
noncomputable def logAlphas (g : CGraph K) (llhs : Fin (n + 1) → Frame K) (t : Fin (n + 1)) :
    Frame K :=
  Fin.induction (motive := fun _ => Frame K)
    (fun s => llhs 0 s + g.init s)
    (fun i prev s => llhs i.succ s + lse (fun j => prev j + g.trans j s)) t

/-- `beer/graph.py:280-287` `_baum_welch_backward`:
`log_betas[-1] = final`, then
`log_betas[i] = logsumexp(log_trans_mat + llhs[i+1] + log_betas[i+1], dim=1)`. -/
noncomputable def logBetas (g : CGraph K) (llhs : Fin (n + 1) → Frame K) (t : Fin (n + 1)) :
    Frame K :=
  Fin.reverseInduction (motive := fun _ => Frame K)
    g.final
    (fun i next s => lse (fun j => g.trans s j + llhs i.succ j + next j)) t

/-- `beer/graph.py:306` `lognorm = logsumexp(log_alphas + log_betas, dim=1)`. -/
noncomputable def lognorm (g : CGraph K) (llhs : Fin (n + 1) → Frame K) (t : Fin (n + 1)) : LogR :=
  lse (fun s => logAlphas g llhs t s + logBetas g llhs t s)

/-- `beer/graph.py:307` `state_posts = (log_alphas + log_betas - lognorm[:, None]).exp()`
(`none` is NaN). -/
noncomputable def statePosts (g : CGraph K) (llhs : Fin (n + 1) → Frame K)
    (t : Fin (n + 1)) (s : Fin K) : Option ℝ :=
  expSub (logAlphas g llhs t s + logBetas g llhs t s) (lognorm g llhs t)

/-- `beer/graph.py:310-311` `log_xi` (for the transition from frame `i` to frame `i+1`). -/
noncomputable def logXi (g : CGraph K) (llhs : Fin (n + 1) → Frame K) (i : Fin n)
    (s d : Fin K) : LogR :=
  logAlphas g llhs i.castSucc s + g.trans s d + (llhs i.succ d + logBetas g llhs i.succ d)

/-- `beer/graph.py:316` per-frame normaliser: `logsumexp` over the flattened `K * K` entries. -/
noncomputable def xiNorm (g : CGraph K) (llhs : Fin (n + 1) → Frame K) (i : Fin n) : LogR :=
  llog (∑ s, ∑ d, lexp (logXi g llhs i s d))

/-- `beer/graph.py:317-322` `trans_posts`, with NaN replaced by zero. -/
noncomputable def transPosts (g : CGraph K) (llhs : Fin (n + 1) → Frame K) (i : Fin n)
    (s d : Fin K) : ℝ :=
  (expSub (logXi g llhs i s d) (xiNorm g llhs i)).getD 0

/-- Division of a log-domain number by a positive integer (`-inf / n = -inf`). -/
noncomputable def divNat (x : LogR) (m : ℕ) : LogR := WithBot.map (fun r : ℝ => r / m) x

/-- `beer/graph.py:326` the second returned value, `lognorm.mean()`. -/
noncomputable def meanLognorm (g : CGraph K) (llhs : Fin (n + 1) → Frame K) : LogR :=
  divNat (∑ t, lognorm g llhs t) (n + 1)

/-- `torch.argmax`: some position of a maximum, no promise about ties. -/
def IsArgmax (am : Frame K → Fin K) : Prop := ∀ (v : Frame K) (i : Fin K), v i ≤ v (am v)

/-- `beer/graph.py:333-339` the vector `omega` after frame `t` (argmax made by `am`):
`hypothesis = omega + log_trans_mat.t(); omega = llhs[i] + hypothesis[s, argmax(hypothesis[s])]`. -/
noncomputable def omega (am : Frame K → Fin K) (g : CGraph K) (llhs : Fin (n + 1) → Frame K)
    (t : Fin (n + 1)) : Frame K :=
  Fin.induction (motive := fun _ => Frame K)
    (fun s => llhs 0 s + g.init s)
    (fun i prev s =>
      let hyp : Frame K := fun j => prev j + g.trans j s
      llhs i.succ s + hyp (am hyp)) t

/-- `beer/graph.py:338` `backtrack[i+1]`. -/
noncomputable def backtrack (am : Frame K → Fin K) (g : CGraph K) (llhs : Fin (n + 1) → Frame K)
    (i : Fin n) (s : Fin K) : Fin K :=
  am (fun j => omega am g llhs i.castSucc j + g.trans j s)

/-- `beer/graph.py:341-344` `best_path`: last state by argmax of `omega + final`, then the
backtracking pointers are followed. -/
noncomputable def bestPath (am : Frame K → Fin K) (g : CGraph K) (llhs : Fin (n + 1) → Frame K)
    (t : Fin (n + 1)) : Fin K :=
  Fin.reverseInduction (motive := fun _ => Fin K)
    (am (fun s => omega am g llhs (Fin.last n) s + g.final s))
    (fun i next => backtrack am g llhs i next) t

/-- Entry point with an arbitrary number of frames: `llhs[0]` raises `IndexError` when there is no
frame (`beer/graph.py:333`). -/
noncomputable def bestPathPy (am : Frame K → Fin K) (g : CGraph K) :
    (N : ℕ) → (Fin N → Frame K) → Except Err (List (Fin K))
  | 0, _ => .error .indexError
  | _ + 1, llhs => .ok (List.ofFn (bestPath am g llhs))

/-- `beer/graph.py:289-326` `posteriors` with an arbitrary number of frames
(`llhs[0]` raises `IndexError` on an empty utterance). -/
noncomputable def posteriorsPy (g : CGraph K) :
    (N : ℕ) → (Fin N → Frame K) → Except Err ((Fin N → Fin K → Option ℝ) × LogR)
  | 0, _ => .error .indexError
  | _ + 1, llhs => .ok (statePosts g llhs, meanLognorm g llhs)

end Verif
