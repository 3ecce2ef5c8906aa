import Verif.Model.ModelSet
import Verif.Model.Pipeline
import Verif.Model.Likelihood
import Mathlib.Algebra.BigOperators.Fin
import Mathlib.Logic.Equiv.Fin.Basic

/-!
# Creation of a subspace phone-loop
(`cli/subcommands/shmm/mksphoneloop.py`, and the choice of the group in
`cli/subcommands/hshmm/mksphoneloop.py`)

Files are represented by their parsed content.  The statistics of the weights of a unit are a table
states × components whose last column is the number of frames of the state, those of the Gaussians a
table components × statistics, the components of the first state first.  State ids are natural numbers.
-/

namespace Verif.SPL

open Verif ModelSet Pipeline

/-! ## The units -/

/-- `nstates`, lines 88-92: the maximum starts at zero, so the truncated difference is exact. -/
def nStates {F : Type} (topo : List (Arc F)) : ℕ := topo.foldl (fun n a => max n (a.stop - 1)) 0

/-- `nunits`, line 102. -/
def nUnits (len nstates : ℕ) : Except Err ℕ :=
  if nstates = 0 then .error .zeroDivision else .ok (len / nstates)

/-- `iterate_units`, lines 16-19, from unit `idx` on. -/
def unitsFrom {α β : Type} (m : MixSet α β) (nstates : ℕ) : ℕ → ℕ → Except Err (List (MixSet α β))
  | _, 0 => .ok []
  | idx, n + 1 =>
    match m.getSlice ⟨some ((idx * nstates : ℕ) : ℤ), some (((idx + 1) * nstates : ℕ) : ℤ), none⟩ with
    | .error e => .error e
    | .ok u =>
      match unitsFrom m nstates (idx + 1) n with
      | .error e => .error e
      | .ok us => .ok (u :: us)

/-- `iterate_units(units_emissions, nunits, nstates)`, lines 16-19 and 153. -/
def iterateUnits {α β : Type} (m : MixSet α β) (nunits nstates : ℕ) : Except Err (List (MixSet α β)) :=
  unitsFrom m nstates 0 nunits

/-- Lines 78-103 and 153: the units of the group, `conf` being the groups of the configuration, and
`modelsets` the emissions of the groups. -/
def groupUnitsOf {F α β : Type} (conf : List (String × List (Arc F))) (group : String)
    (modelsets : List (MixSet α β)) : Except Err (List (MixSet α β)) :=
  match conf.findIdx? (fun c => c.1 = group) with
  | none => .error .valueError
  | some i =>
    match conf[i]?, modelsets[i]? with
    | some c, some m =>
      match nUnits m.cats.length (nStates c.2) with
      | .error e => .error e
      | .ok n => iterateUnits m n (nStates c.2)
    | _, _ => .error .indexError

/-- `cli/subcommands/hshmm/mksphoneloop.py` 86 and 108-111: the first group, then any later one with more
emissions. -/
def largestGroup {α β : Type} : List (MixSet α β) → Except Err (MixSet α β)
  | [] => .error .indexError
  | m :: ms => .ok ((m :: ms).foldl (fun best g => if best.cats.length < g.cats.length then g else best) m)

/-- `cli/subcommands/hshmm/mksphoneloop.py` 81-112 and 156, for one language. -/
def hierUnitsOf {F α β : Type} (conf : List (String × List (Arc F))) (group : String)
    (modelsets : List (MixSet α β)) : Except Err (List (MixSet α β)) :=
  match conf.findIdx? (fun c => c.1 = group) with
  | none => .error .valueError
  | some i =>
    match conf[i]? with
    | none => .error .indexError
    | some c =>
      match largestGroup modelsets with
      | .error e => .error e
      | .ok m =>
        match nUnits m.cats.length (nStates c.2) with
        | .error e => .error e
        | .ok n => iterateUnits m n (nStates c.2)

/-! ## The initial statistics -/

/-- `param_stats`, lines 23-25. -/
def paramStats {V : Type*} [Sub V] (post prior : V) : V := post - prior

section stats

variable {F : Type} [Field F] {S K Q : ℕ}

/-- `init_weights_stats`, lines 30-37, `K + 1` components. -/
def initWeightsStats (stats : Fin S → Fin (K + 1) → F) : Fin S → Fin (K + 1) → F :=
  let counts := ∑ s, stats s (Fin.last K)
  fun _ c => if c = Fin.last K then counts / 3 else counts / (3 * ((K + 1 : ℕ) : F))

/-- `init_means_precisions_stats`, lines 42-48; `pi` is the value of the weights, read row by row by
`view(-1, 1)`. Line 45 has no effect. -/
def initMeansStats (pi : Fin S → Fin (K + 1) → F) (stats : Fin (S * (K + 1)) → Fin Q → F) :
    Fin (S * (K + 1)) → Fin Q → F :=
  fun _ q => ∑ k, stats k q * pi k.divNat k.modNat

end stats

/-- The value of the weights of a new subspace parameter, `gsm.py` 352 and 355-356: its pdf-vector is
zero. -/
noncomputable def newWeightsValue (ncomps : ℕ) : Except Err (List ℝ) :=
  Dists.catParams (List.replicate ncomps 0)

/-! ## The labels -/

/-- Lines 117-122: the lines of the class file, as their fields. -/
def readClasses : List (List String) → List (String × String) → List (String × String) →
    Except Err (List (String × String) × List (String × String))
  | [], u2c, c2u => .ok (u2c, c2u)
  | [unit, uclass] :: ls, u2c, c2u => readClasses ls (dictSet u2c unit uclass) (dictSet c2u uclass unit)
  | _ :: _, _, _ => .error .valueError

/-- `class2idx`, lines 123-124. -/
def classIndex (c2u : List (String × String)) : List (String × ℕ) :=
  ((c2u.map Prod.fst).insertionSort (· ≤ ·)).zipIdx

/-- The loop of lines 128-131. -/
def labelsLoop (u2c : List (String × String)) (c2i : List (String × ℕ)) :
    List String → ℕ → List ℕ → Except Err (List ℕ)
  | [], _, labels => .ok labels
  | unit :: us, idx, labels =>
    match u2c.find? (fun p => p.1 = unit) with
    | none => labelsLoop u2c c2i us idx labels
    | some p =>
      match dictGet c2i p.2 with
      | .error e => .error e
      | .ok c =>
        if idx < labels.length then labelsLoop u2c c2i us (idx + 1) (labels.set idx c)
        else .error .indexError

/-- Lines 116-131: the labels of the units, `startPdf` being the names of the units of the phone-loop, in
order. -/
def mkLabels (lines : List (List String)) (startPdf : List String) (nunits : ℕ) : Except Err (List ℕ) :=
  match readClasses lines [] [] with
  | .error e => .error e
  | .ok (u2c, c2u) => labelsLoop u2c (classIndex c2u) startPdf 0 (List.replicate nunits 0)

/-! ## The option `--posteriors` -/

/-- The modes of `open` used by the commands. -/
inductive Mode
  | rb
  | wb
deriving DecidableEq

/-- The content of the files of a directory. -/
abbrev Files (C : Type) := String → Option C

/-- `open(path, mode)`: writing empties the file, or creates it; reading needs it (`OSError`, the
`ValueError` of `Err` standing for it). The handle is the path and the mode. -/
def openFile {C : Type} (empty : C) (mode : Mode) (path : String) (files : Files C) :
    Files C × Except Err (String × Mode) :=
  match mode with
  | .wb => (fun f => if f = path then some empty else files f, .ok (path, mode))
  | .rb => (files, if (files path).isSome then .ok (path, mode) else .error .valueError)

/-- `pickle.load(f)`: a file opened for writing raises `io.UnsupportedOperation`, which is a
`ValueError`. -/
def loadFile {C : Type} (files : Files C) (handle : String × Mode) : Except Err C :=
  match handle.2, files handle.1 with
  | .rb, some c => .ok c
  | _, _ => .error .valueError

/-- Lines 160-162: the files afterwards, and the posteriors read, if any. -/
def loadPosteriors {C : Type} (empty : C) (files : Files C) (path : Option String) :
    Files C × Except Err (Option C) :=
  match path with
  | none => (files, .ok none)
  | some p =>
    match openFile empty .wb p files with
    | (files, .error e) => (files, .error e)
    | (files, .ok h) =>
      match loadFile files h with
      | .error e => (files, .error e)
      | .ok c => (files, .ok (some c))

end Verif.SPL
