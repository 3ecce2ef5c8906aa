import Mathlib.Analysis.SpecialFunctions.Pow.Real
import Mathlib.Data.Fintype.BigOperators
import Verif.Model.Py

/-!
# Options of the training commands of the subspace models
(`cli/subcommands/shmm/train.py`, `cli/subcommands/hshmm/train.py`, `inference/optimizers.py`)

The standard parameters are the coordinates `i : ι` of all the tensors, each in one of the blocks `β` (root subspace,
latent posteriors of the languages, latent posteriors of the units). The gradient is any function of the epoch and of all
the parameters; the update of the conjugate parameters is any function as well. `torch.optim.Adam`, `torch.optim.SGD`,
`zero_grad`, `clip_grad_norm_` and `load_state_dict` are modelled as torch documents them; whether `zero_grad` sets
gradients to zero or to `None` depends on the version of torch and is a parameter (`toNone`).
-/

namespace Verif.TrainOpts

open Verif

/-! ## torch -/

/-- State of Adam for one coordinate. -/
structure AdamState where
  step : ℕ
  m : ℝ
  v : ℝ

/-- The state of a coordinate that was never updated. -/
def AdamState.fresh : AdamState := ⟨0, 0, 0⟩

/-- One coordinate of a parameter: value, gradient, state of the optimizer. -/
structure Cell where
  val : ℝ
  grad : Option ℝ
  state : AdamState

/-- `zero_grad`. -/
noncomputable def zeroGrad (toNone : Bool) (c : Cell) : Cell :=
  if toNone then { c with grad := none } else { c with grad := c.grad.map fun _ => 0 }

/-- `backward`: gradients are added to what is there. -/
noncomputable def addGrad (c : Cell) (g : ℝ) : Cell := { c with grad := some (c.grad.getD 0 + g) }

/-- A step of SGD (`cli/subcommands/hshmm/train.py` 128: no momentum). -/
noncomputable def sgdStep (lr : ℝ) (c : Cell) : Cell :=
  match c.grad with
  | none => c
  | some g => { c with val := c.val - lr * g }

/-- A step of Adam with the default `betas` and `eps` (`cli/subcommands/hshmm/train.py` 126, `cli/subcommands/shmm/train.py` 95). -/
noncomputable def adamStep (lr : ℝ) (c : Cell) : Cell :=
  match c.grad with
  | none => c
  | some g =>
    let t := c.state.step + 1
    let m := 9 / 10 * c.state.m + 1 / 10 * g
    let v := 999 / 1000 * c.state.v + 1 / 1000 * g ^ 2
    let mhat := m / (1 - (9 / 10) ^ t)
    let vhat := v / (1 - (999 / 1000) ^ t)
    { c with val := c.val - lr * mhat / (√vhat + 1 / 10 ^ 8), state := ⟨t, m, v⟩ }

variable {ι β C : Type} [Fintype ι]

/-- The norm of all the gradients. -/
noncomputable def gradNorm (cells : ι → Cell) : ℝ := √(∑ i, (cells i).grad.getD 0 ^ 2)

/-- `clip_grad_norm_`. -/
noncomputable def clipGrads (maxNorm : ℝ) (cells : ι → Cell) : ι → Cell :=
  let coef := min 1 (maxNorm / (gradNorm cells + 1 / 10 ^ 6))
  fun i => { cells i with grad := (cells i).grad.map fun g => g * coef }

/-! ## Training -/

/-- The options. `skip` are the blocks frozen, `skipCjg` tells that no conjugate parameter is given to the optimizer
(`cli/subcommands/shmm/train.py` 86-87, `cli/subcommands/hshmm/train.py` 108-109). -/
structure Opts (β : Type) where
  sgd : Bool
  toNone : Bool
  skip : β → Bool
  skipCjg : Bool
  clip : ℝ
  lrStd : ℝ
  lrCjg : ℝ

/-- Parameters and optimizers. The rates are those of the optimizers. -/
structure TState (ι C : Type) where
  cells : ι → Cell
  lrStd : ℝ
  conj : C
  lrCjg : ℝ
  updateCount : ℕ

/-- What is trained: the gradient of the objective and the update of the conjugate parameters, functions of the epoch (the
draws) and of the parameters; the update also of the rate and of the count. -/
structure Task (ι β C : Type) where
  block : ι → β
  gradient : ℕ → (ι → ℝ) → C → ι → ℝ
  update : ℕ → (ι → ℝ) → ℝ → ℕ → C → C

/-- `optim.init_step()`, `inference/optimizers.py` 61-63. The statistics of the conjugate parameters are part of `update`. -/
noncomputable def initStep (o : Opts β) (s : TState ι C) : TState ι C :=
  { s with cells := fun i => zeroGrad o.toNone (s.cells i) }

/-- `elbo.backward()`. -/
noncomputable def backward (t : Task ι β C) (n : ℕ) (s : TState ι C) : TState ι C :=
  { s with cells := fun i => addGrad (s.cells i) (t.gradient n (fun j => (s.cells j).val) s.conj i) }

/-- `zero_grad` of the blocks to freeze, `cli/subcommands/hshmm/train.py` 157-164. -/
noncomputable def freeze (t : Task ι β C) (o : Opts β) (s : TState ι C) : TState ι C :=
  { s with cells := fun i => if o.skip (t.block i) then zeroGrad o.toNone (s.cells i) else s.cells i }

/-- `cli/subcommands/hshmm/train.py` 165-169. -/
noncomputable def clip (o : Opts β) (s : TState ι C) : TState ι C :=
  if o.clip > 0 then { s with cells := clipGrads o.clip s.cells } else s

/-- `optim.step()`, `inference/optimizers.py` 65-67 and 27-31; the statistics come from the parameters `vals` of the epoch. -/
noncomputable def optStep (t : Task ι β C) (o : Opts β) (n : ℕ) (vals : ι → ℝ) (s : TState ι C) : TState ι C :=
  { s with
    cells := fun i => if o.sgd then sgdStep s.lrStd (s.cells i) else adamStep s.lrStd (s.cells i)
    conj := if o.skipCjg then s.conj else t.update n vals s.lrCjg s.updateCount s.conj
    updateCount := s.updateCount + 1 }

/-- An epoch, `cli/subcommands/hshmm/train.py` 153-170; `cli/subcommands/shmm/train.py` 113-117 is the same with nothing frozen and no clipping. -/
noncomputable def epoch (t : Task ι β C) (o : Opts β) (n : ℕ) (s : TState ι C) : TState ι C :=
  optStep t o n (fun j => (s.cells j).val) (clip o (freeze t o (backward t n (initStep o s))))

/-- Epochs `n`, `n + 1`, … -/
noncomputable def epochs (t : Task ι β C) (o : Opts β) : ℕ → ℕ → TState ι C → TState ι C
  | _, 0, s => s
  | n, k + 1, s => epochs t o (n + 1) k (epoch t o n s)

/-- The loop and line 176 (122 for `shmm train`), which names `epoch`. -/
noncomputable def trainLoop (t : Task ι β C) (o : Opts β) (n : ℕ) (nepochs : ℤ) (s : TState ι C) :
    Except Err (TState ι C) :=
  if nepochs ≤ 0 then .error .nameError else .ok (epochs t o n nepochs.toNat s)

/-! ## State of the optimizers -/

/-- A fresh optimizer for the parameters `vals` and `conj`, `cli/subcommands/hshmm/train.py` 112-130. -/
def start (o : Opts β) (vals : ι → ℝ) (conj : C) : TState ι C :=
  ⟨fun i => ⟨vals i, none, .fresh⟩, o.lrStd, conj, o.lrCjg, 0⟩

/-- `optim.state_dict()`, `inference/optimizers.py` 15-16 and 43-49: the size of the group of parameters, the rate and the states by
position (`pos` coordinates). -/
structure Saved where
  size : ℕ
  states : ℕ → AdamState
  lrStd : ℝ
  lrCjg : ℝ
  updateCount : ℕ

/-- Saving; the coordinates are numbered. -/
noncomputable def save {N : ℕ} (s : TState (Fin N) C) : Saved :=
  ⟨N, fun k => if h : k < N then (s.cells ⟨k, h⟩).state else .fresh, s.lrStd, s.lrCjg, s.updateCount⟩

/-- `optim.load_state_dict(state)`, `inference/optimizers.py` 51-55 and 18-20; torch refuses a group of another size and replaces
the options of the group. -/
def load {N : ℕ} (d : Saved) (s : TState (Fin N) C) : Except Err (TState (Fin N) C) :=
  if d.size ≠ N then .error .valueError
  else .ok { s with
    cells := fun i => { s.cells i with state := d.states i.1 }
    lrStd := d.lrStd, lrCjg := d.lrCjg, updateCount := d.updateCount }

/-- The command without the files of the models, which hold the values: `state` is the content of the file of
`--optim-state`, if there is one (`cli/subcommands/hshmm/train.py` 125-138 and 153-176). -/
noncomputable def command {N : ℕ} (t : Task (Fin N) β C) (o : Opts β) (state : Option Saved) (n : ℕ) (nepochs : ℤ)
    (vals : Fin N → ℝ) (conj : C) : Except Err (TState (Fin N) C) :=
  match state with
  | none => trainLoop t o n nepochs (start o vals conj)
  | some d =>
    match load d (start o vals conj) with
    | .error e => .error e
    | .ok s => trainLoop t o n nepochs s

/-- `VBOptimizer.load_state`, `inference/optimizers.py` 57-59: `pickle` is not imported in the module. -/
def loadState (_path : String) : Except Err Unit := .error .nameError

/-- The number of coordinates given to the standard optimizer by `shmm train`, `cli/subcommands/shmm/train.py` 91-94. -/
def shmmSize (posteriors : Bool) (nPosts nGsm : ℕ) : ℕ := if posteriors then nPosts else nPosts + nGsm

end Verif.TrainOpts
