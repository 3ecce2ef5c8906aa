import Verif.Model.Eval
import Verif.Model.Nnet
import Mathlib.Analysis.Complex.Trigonometric

/-!
# Neural networks from configurations

* `beer/nnet/neuralnetwork.py`
* `beer/nnet/residual.py`

Strings are lists of characters. `torch.nn` is a table of constructors and `ast.literal_eval` a function that may
raise; both are arguments. In the forward passes the layers are arbitrary functions on a type of values with an
addition (shapes are not modelled).
-/

namespace Verif.NetConf

open Verif Pipeline

/-! ## Reading a configuration -/

/-- `str.split(sep)` with a separator of one character. -/
def splitOn (sep : Char) : List Char → List (List Char)
  | [] => [[]]
  | c :: cs =>
    if c = sep then [] :: splitOn sep cs
    else match splitOn sep cs with
      | [] => [[c]]
      | p :: ps => (c :: p) :: ps

/-- The loop of `parse_nnet_element`, `neuralnetwork.py` 103-105: unpacking a list that does not have two
elements raises `ValueError`. -/
def parseArgs : List (List Char) → List (List Char × List Char) → Except Err (List (List Char × List Char))
  | [], kwargs => .ok kwargs
  | arg :: args, kwargs =>
    match splitOn '=' arg with
    | [name, val] => parseArgs args (dictSet kwargs name val)
    | _ => .error .valueError

/-- `parse_nnet_element`, `neuralnetwork.py` 99-108. `''.join(strval.split())` removes the white space
(simplification: ASCII white space, `Char.isWhitespace`). -/
def parseElement (strval : List Char) : Except Err (List Char × List (List Char × List Char)) :=
  let nospace := strval.filter fun c => !c.isWhitespace
  if ':' ∈ nospace then
    match splitOn ':' nospace with
    | [name, args] =>
      match parseArgs (splitOn ';' args) [] with
      | .error e => .error e
      | .ok kwargs => .ok (name, kwargs)
    | _ => .error .valueError
  else .ok (nospace, [])

/-- What a name of `torch.nn` or of the module gives: a constructor taking keyword arguments. -/
abbrev Constructor (A L : Type) := List (List Char × A) → Except Err L

/-- The layers the module adds: `ReshapeLayer(shape)`, `TransposeLayer()`, `IdentityLayer()`. -/
structure Extensions (A L : Type) where
  reshape : A → L
  transpose : L
  identity : L

/-- Choice of the constructor, `neuralnetwork.py` 125-136. Wrong keyword arguments raise `TypeError`. -/
def constructorOf {A L : Type} (torchNN : List Char → Option (Constructor A L)) (ext : Extensions A L)
    (name : List Char) : Except Err (Constructor A L) :=
  match torchNN name with
  | some f => .ok f
  | none =>
    if name = "ReshapeLayer".toList then
      .ok fun kwargs => match kwargs with
        | [(k, v)] => if k = "shape".toList then .ok (ext.reshape v) else .error .typeError
        | _ => .error .typeError
    else if name = "TransposeLayer".toList then
      .ok fun kwargs => if kwargs = [] then .ok ext.transpose else .error .typeError
    else if name = "IdentityLayer".toList then
      .ok fun kwargs => if kwargs = [] then .ok ext.identity else .error .typeError
    else .error .valueError

/-- One element of the loop of `create_nnet_element`, `neuralnetwork.py` 124-141. -/
def createOne {A L : Type} [DecidableEq A] (torchNN : List Char → Option (Constructor A L)) (ext : Extensions A L)
    (lit : List Char → Except Err A) (s : List Char) : Except Err L :=
  match parseElement s with
  | .error e => .error e
  | .ok (name, strKwargs) =>
    match constructorOf torchNN ext name with
    | .error e => .error e
    | .ok f =>
      match Eval.listComp (fun p : List Char × List Char => match lit p.2 with
          | .error e => .error e
          | .ok v => .ok (p.1, v)) strKwargs with
      | .error e => .error e
      | .ok kwargs => f kwargs

/-- An element: one layer, or a `MergeTransform` of several. -/
inductive Element (L : Type) where
  | single (l : L)
  | merge (ls : List L)

/-- `create_nnet_element`, `neuralnetwork.py` 121-145. -/
def createElement {A L : Type} [DecidableEq A] (torchNN : List Char → Option (Constructor A L))
    (ext : Extensions A L) (lit : List Char → Except Err A) (strval : List Char) : Except Err (Element L) :=
  match Eval.listComp (createOne torchNN ext lit) (splitOn '|' strval) with
  | .error e => .error e
  | .ok [] => .error .indexError
  | .ok [l] => .ok (.single l)
  | .ok ls => .ok (.merge ls)

/-- Configuration of a block: `block_structure` and, possibly, `residual`. -/
structure BlockConf where
  structure_ : List (List Char)
  residual : Option (List Char)

/-- A block: its elements and its residual connection. -/
structure Block (L : Type) where
  elems : List (Element L)
  residual : Option (Element L)

/-- `create_nnet_block`, `neuralnetwork.py` 158-164. -/
def createBlock {A L : Type} [DecidableEq A] (torchNN : List Char → Option (Constructor A L))
    (ext : Extensions A L) (lit : List Char → Except Err A) (conf : BlockConf) : Except Err (Block L) :=
  match Eval.listComp (createElement torchNN ext lit) conf.structure_ with
  | .error e => .error e
  | .ok elems =>
    match conf.residual with
    | none => .ok ⟨elems, none⟩
    | some s =>
      match createElement torchNN ext lit s with
      | .error e => .error e
      | .ok r => .ok ⟨elems, some r⟩

/-- `create`, `neuralnetwork.py` 176-179. -/
def create {A L : Type} [DecidableEq A] (torchNN : List Char → Option (Constructor A L))
    (ext : Extensions A L) (lit : List Char → Except Err A) (conf : List BlockConf) : Except Err (List (Block L)) :=
  Eval.listComp (createBlock torchNN ext lit) conf

/-! ## Forward passes -/

section

variable {V : Type} [AddCommMonoid V]

/-- `MergeTransform.forward`, `neuralnetwork.py` 63-67: `zip` stops with the shorter list. -/
def mergeForward (transforms : List (V → V)) (inputs : List V) : Except Err V :=
  match transforms, inputs with
  | [], _ => .error .indexError
  | _, [] => .error .indexError
  | t :: ts, x :: xs => .ok ((List.zip xs ts).foldl (fun acc p => acc + p.2 p.1) (t x))

/-- What the caller's first input holds afterwards: `retval += …` works in place, so it is changed when the
first transform returns its input itself (`aliases`: `IdentityLayer`, a view) and something is added. -/
def mergeFirstInput (aliases : Bool) (transforms : List (V → V)) (inputs : List V) : Option V :=
  match transforms, inputs with
  | _, [] => none
  | [], x :: _ => some x
  | t :: ts, x :: xs =>
    if aliases then some ((List.zip xs ts).foldl (fun acc p => acc + p.2 p.1) (t x)) else some x

/-- An element called with one input. -/
def elementForward (e : Element (V → V)) (x : V) : Except Err V :=
  match e with
  | .single f => .ok (f x)
  | .merge fs => mergeForward fs [x]

/-- `torch.nn.Sequential`. -/
def seqForward {M : Type} (forward : M → V → Except Err V) : List M → V → Except Err V
  | [], x => .ok x
  | m :: ms, x =>
    match forward m x with
    | .error e => .error e
    | .ok y => seqForward forward ms y

/-- `NeuralNetworkBlock.forward`, `neuralnetwork.py` 47-51. -/
def blockForward (b : Block (V → V)) (data : V) : Except Err V :=
  match seqForward elementForward b.elems data with
  | .error e => .error e
  | .ok h =>
    match b.residual with
    | none => .ok h
    | some r =>
      match elementForward r data with
      | .error e => .error e
      | .ok y => .ok (h + y)

/-- The network built by `create`, applied. -/
def netForward (net : List (Block (V → V))) (data : V) : Except Err V := seqForward blockForward net data

end

/-! ## `residual.py` -/

/-- `ResidualFeedFowardBlock.forward`, `residual.py` 22-25, for one row. -/
noncomputable def resBlock {D W : ℕ} (act : ℝ → ℝ) (layer1 : Nnet.Linear D W) (layer2 : Nnet.Linear W D)
    (x : Fin D → ℝ) : Fin D → ℝ :=
  let h1 : Fin W → ℝ := fun w => act (layer1.forward x w)
  let h2 : Fin D → ℝ := fun d => act (layer2.forward h1 d)
  fun d => h2 d + x d

/-- `ResidualFeedForwardNet.forward`, `residual.py` 47-48, with the default activation `Tanh`. -/
noncomputable def resNet {D W : ℕ} (blocks : List (Nnet.Linear D W × Nnet.Linear W D)) (x : Fin D → ℝ) :
    Fin D → ℝ :=
  blocks.foldl (fun h b => resBlock Real.tanh b.1 b.2 h) x

end Verif.NetConf
