import Verif.Model.Py
import Mathlib.Analysis.SpecialFunctions.Log.Basic
import Mathlib.Analysis.Real.Sqrt
import Mathlib.Analysis.Real.Pi.Bounds
import Mathlib.Algebra.BigOperators.Fin

/-!
# Auto-regressive networks and flows (`beer/nnet/arnet.py`, `beer/nnet/problayers.py` 164-207)

One data row at a time.  The activation is a function applied to every unit; all random choices
(connections, weights, noise) are arguments.
-/

namespace Verif.Nnet

variable {D W F : ℕ}

/-- `create_mask`, `arnet.py:10-28`: `retval[i, j] = 1` when `m_i + 1 >= order_j + 1`. -/
def createMask {i o : ℕ} (ordering : Fin i → ℕ) (maxConn : Fin o → ℕ) (a : Fin o) (b : Fin i) : ℝ :=
  if maxConn a + 1 ≥ ordering b + 1 then 1 else 0

/-- `create_final_mask`, `arnet.py:31-51`: `retval[i, j] = 1` when `order_i + 1 > m_j + 1`. -/
def createFinalMask {i o : ℕ} (ordering : Fin o → ℕ) (maxConn : Fin i → ℕ) (a : Fin o) (b : Fin i) :
    ℝ :=
  if ordering a + 1 > maxConn b + 1 then 1 else 0

/-- Weights and bias of a `torch.nn.Linear`. -/
structure Linear (i o : ℕ) where
  weight : Fin o → Fin i → ℝ
  bias : Fin o → ℝ

/-- `torch.nn.functional.linear`. -/
noncomputable def Linear.forward {i o : ℕ} (l : Linear i o) (x : Fin i → ℝ) : Fin o → ℝ :=
  fun a => ∑ b, l.weight a b * x b + l.bias a

/-- `MaskedLinear.forward`, `arnet.py:69-74`. -/
noncomputable def maskedForward {i o : ℕ} (mask : Fin o → Fin i → ℝ) (l : Linear i o)
    (x : Fin i → ℝ) : Fin o → ℝ :=
  Linear.forward ⟨fun a b => l.weight a b * mask a b, l.bias⟩ x

/-- One hidden layer after the first: its connections (`layer_connections[i]`) and weights. -/
structure HiddenLayer (W : ℕ) where
  conn : Fin W → ℕ
  lin : Linear W W

/-- An auto-regressive network of depth `rest.length + 1` (`AutoRegressiveNetwork`,
`arnet.py:106-130`), with `F` flow parameters. -/
structure ARNet (D W F : ℕ) where
  conn0 : Fin W → ℕ
  lin0 : Linear D W
  /-- The transform of the flow parameters merged into the first layer (`flow_params_dim > 0`). -/
  linF : Linear F W
  rest : List (HiddenLayer W)
  act : ℝ → ℝ
  mean : Linear W D
  logvar : Linear W D

/-- The hidden layers after the first, with the connections of the layer below,
`arnet.py:115-123`. Returns the activations and the connections of the last hidden layer. -/
noncomputable def hiddenForward (act : ℝ → ℝ) :
    List (HiddenLayer W) → (Fin W → ℕ) → (Fin W → ℝ) → (Fin W → ℝ) × (Fin W → ℕ)
  | [], conn, h => (h, conn)
  | l :: ls, conn, h =>
    hiddenForward act ls l.conn
      (fun a => act (maskedForward (createMask conn l.conn) l.lin h a))

/-- `torch.sigmoid`. -/
noncomputable def sigmoid (x : ℝ) : ℝ := 1 / (1 + Real.exp (-x))

/-- `ARNetNormalDiagonalCovarianceLayer.forward`, `arnet.py:90-94`. -/
noncomputable def arOut (mask : Fin D → Fin W → ℝ) (mean logvar : Linear W D) (h : Fin W → ℝ) :
    (Fin D → ℝ) × (Fin D → ℝ) :=
  let m := maskedForward mask mean h
  let variance : Fin D → ℝ := fun d => 1e-2 + sigmoid (maskedForward mask logvar h d)
  (fun d => (1 - variance d) * m d, variance)

/-- The whole network applied to data `x` and, when `flow_params_dim > 0`, flow parameters `f`
(`MergeTransform`, `neuralnetwork.py:64-68`). `ordering = range(dim_in)`. -/
noncomputable def arForward (net : ARNet D W F) (x : Fin D → ℝ) (f : Fin F → ℝ) :
    (Fin D → ℝ) × (Fin D → ℝ) :=
  let h0 : Fin W → ℝ := fun a => net.act
    (maskedForward (createMask (fun d : Fin D => d.val) net.conn0) net.lin0 x a
      + (if F = 0 then 0 else net.linF.forward f a))
  let hc := hiddenForward net.act net.rest net.conn0 h0
  arOut (createFinalMask (fun d : Fin D => d.val) hc.2) net.mean net.logvar hc.1

/-- Calling the network with `nargs` positional arguments: without flow parameters the first module
is a `MaskedLinear`, whose `forward` takes exactly one; with them it is a `MergeTransform`, which
needs at least one (`inputs[0]`) and ignores a missing second. -/
def callError (F nargs : ℕ) : Option Err :=
  if F = 0 then (if nargs = 1 then none else some .typeError)
  else (if nargs = 0 then some .indexError else none)

/-- The construction: `random.choices(range(0, dim_in - 1), k=width)` raises `IndexError` on an
empty population (when at least one value is drawn), `layer_connections[-1]` on depth zero. -/
def buildError (dimIn depth width : ℕ) : Option Err :=
  if depth = 0 then some .indexError
  else if dimIn ≤ 1 ∧ 0 < width then some .indexError
  else none

/-! ## Inverse auto-regressive flow -/

/-- One flow step on the data, `problayers.py:195-196`. -/
noncomputable def flowStep (net : ARNet D W F) (f : Fin F → ℝ) (x : Fin D → ℝ) : Fin D → ℝ :=
  let out := arForward net x f
  fun d => out.1 d + Real.sqrt (out.2 d) * x d

/-- The log-likelihood correction of one step, `problayers.py:197`. -/
noncomputable def flowCorrection (net : ARNet D W F) (f : Fin F → ℝ) (x : Fin D → ℝ) : ℝ :=
  -(1 / 2) * ∑ d, Real.log ((arForward net x f).2 d)

/-- `InverseAutoRegressiveFlow.samples_and_llh`, `problayers.py:179-198`, given the noise: the sample and its
log-likelihood.  Each step calls the network with two arguments; `means[:, 0]` (line 185) needs a column. -/
noncomputable def samplesAndLlh (nets : List (ARNet D W F)) (f : Fin F → ℝ) (means vars : Fin D → ℝ)
    (useMean : Bool) (noise : Fin D → ℝ) : Except Err ((Fin D → ℝ) × ℝ) :=
  if useMean = true ∧ D = 0 then .error .indexError
  else
  let flow : Fin D → ℝ := if useMean then means else fun d => means d + Real.sqrt (vars d) * noise d
  let llh : ℝ := if useMean then 0 else -(1 / 2) * (∑ d, noise d ^ 2 + D * Real.log (2 * Real.pi))
  let llh : ℝ := llh - 1 / 2 * ∑ d, Real.log (vars d)
  nets.foldlM (fun st net =>
    match callError F 2 with
    | some e => .error e
    | none => .ok (flowStep net f st.1, st.2 + flowCorrection net f st.1)) (flow, llh)

end Verif.Nnet
