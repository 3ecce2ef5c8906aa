import Verif.Model.Pipeline

/-!
# Initialisation and loading of hierarchical subspace models
(`cli/subcommands/hshmm/init.py`, `cli/subcommands/hshmm/train.py` 66-105 and 140-145, and the dictionaries made by
`cli/subcommands/hshmm/mksphoneloop.py` 100-112 and 160-184)

Files are represented by their content. The GSMs of the languages are objects: dictionaries map languages to addresses of
a heap. A GSM is its root transform and the rest (`T` and `G`); `expected_pdfvecs` is any function of both and of the
latent posteriors (it is modelled in `Model/HierGSM`; the draws are part of the function). Emissions of a group are given
by their number; units are `U`, writing a pdf-vector into a unit is any function.
An option that is not given and an empty option are both false; both are the empty string here.
-/

namespace Verif.HInit

open Verif Pipeline

variable {T G P U V : Type}

/-! ## Objects -/

/-- A GSM of a language, `gsm.py` 199-207 and 528-532. -/
structure LGsm (T G : Type) where
  root : T
  rest : G

/-- The GSMs of all the languages in memory. -/
abbrev GHeap (T G : Type) := ℕ → LGsm T G

/-- `_gsm.transform.root_transform = root`. -/
def setRoot (h : GHeap T G) (a : ℕ) (root : T) : GHeap T G := fun b => if b = a then ⟨root, (h a).rest⟩ else h b

/-- A file of GSMs, `cli/subcommands/hshmm/mksphoneloop.py` 186-191: the shared transform of the root and the GSMs of the languages. -/
structure HFile (T : Type) where
  root : T
  langs : List (String × ℕ)

/-! ## The group of the units -/

/-- `modelsets[i]` for a list of `n` model sets, a negative index counting from the end. -/
def pyIndex (n : ℕ) (i : ℤ) : Except Err ℕ :=
  if 0 ≤ i then (if i.toNat < n then .ok i.toNat else .error .indexError)
  else (if (-i).toNat ≤ n then .ok (n - (-i).toNat) else .error .indexError)

/-- The group `hshmm init` writes to, `cli/subcommands/hshmm/init.py` 71-73; `lens` are the numbers of emissions of the groups. -/
def initGroup (lens : List ℕ) (groupidx nstates : ℕ) : Except Err ℕ :=
  match pyIndex lens.length groupidx with
  | .error e => .error e
  | .ok i =>
    if nstates = 0 then .error .zeroDivision
    else if lens.getD i 0 / nstates < 2 then pyIndex lens.length (1 - (groupidx : ℤ))
    else .ok i

/-- The group `cli/subcommands/hshmm/mksphoneloop.py` 108-111 and `cli/subcommands/hshmm/train.py` 101-104 take, from group `j` on, with best so far
`best`. -/
def largestFrom (lens : List ℕ) : List ℕ → ℕ → ℕ → ℕ
  | [], _, best => best
  | n :: ns, j, best => largestFrom lens ns (j + 1) (if lens.getD best 0 < n then j else best)

/-- The same for all the groups. -/
def largestIdx (lens : List ℕ) (groupidx : ℕ) : Except Err ℕ :=
  match pyIndex lens.length groupidx with
  | .error e => .error e
  | .ok i => .ok (largestFrom lens lens 0 i)

/-! ## `hshmm init` -/

/-- A phone-loop: for each group the number of emissions and the units. -/
abbrev Loop (U : Type) := List (ℕ × List U)

/-- `_update_models`, `gsm.py` 453-456. -/
def writeUnits (write : U → V → U) : List U → List V → List U
  | u :: us, v :: vs => write u v :: writeUnits write us vs
  | us, _ => us

/-- What `hshmm init` saves. -/
structure InitOut (T G U : Type) where
  heap : GHeap T G
  gsm : HFile T
  loops : List (String × Loop U)

/-- The languages saved, `cli/subcommands/hshmm/init.py` 50-51 and 56. -/
def initLangs (lang adaptFrom : String) (gsm target : HFile T) : Except Err (List (String × ℕ)) :=
  if adaptFrom ≠ "" then (dictGet gsm.langs adaptFrom).map fun a => dictSet target.langs lang a
  else .ok target.langs

/-- The GSM the pdf-vectors come from, `cli/subcommands/hshmm/init.py` 52-55. -/
def initSource (lang initFrom : String) (gsm : HFile T) (langs : List (String × ℕ)) : Except Err ℕ :=
  if initFrom ≠ "" then dictGet gsm.langs initFrom else dictGet langs lang

/-- `hshmm init`, `cli/subcommands/hshmm/init.py` 42-96. -/
def hinit [Inhabited V] (pdfvecs : T → G → P → List V) (write : U → V → U) (lang adaptFrom initFrom : String)
    (same : Bool) (heap : GHeap T G) (gsm target : HFile T) (posts : List (String × P))
    (unitsDict : List (String × ℕ)) (nstates groupidx : ℕ) (loops : List (String × Loop U)) :
    Except Err (InitOut T G U) := do
  let langs ← initLangs lang adaptFrom gsm target
  let addr ← initSource lang initFrom gsm langs
  let gsm : HFile T := { gsm with langs := langs }
  let nunits ← dictGet unitsDict lang
  let loop ← dictGet loops lang
  let g ← initGroup (loop.map Prod.fst) groupidx nstates
  let group := loop.getD g (0, [])
  let heap := setRoot heap addr gsm.root
  let p ← dictGet posts lang
  let vecs := pdfvecs (heap addr).root (heap addr).rest p
  let vecs := if same then vecs.map fun _ => vecs.headD default else vecs
  let units := writeUnits write (group.2.take nunits) vecs ++ group.2.drop nunits
  pure ⟨heap, gsm, dictSet loops lang (loop.set g (group.1, units))⟩

/-! ## Dictionaries of the commands -/

/-- `cli/subcommands/hshmm/mksphoneloop.py` 100-101, 105, 164-184: the languages of the file of phone-loops (lines `phoneloop lang`), in the
order of their first line; the GSMs are created one after the other from address `a` on. -/
def langsOf (lines : List (String × String)) : List (String × String) :=
  lines.foldl (fun d l => dictSet d l.2 l.1) []

/-- The loop of `cli/subcommands/hshmm/mksphoneloop.py` 174-184: the dictionaries of the GSMs and of the latent posteriors. -/
def mkDicts (post : String → P) : List (String × String) → ℕ → List (String × ℕ) → List (String × P) →
    List (String × ℕ) × List (String × P)
  | [], _, gsms, posts => (gsms, posts)
  | (lang, _) :: ls, a, gsms, posts => mkDicts post ls (a + 1) (dictSet gsms lang a) (dictSet posts lang (post lang))

/-- `cli/subcommands/hshmm/train.py` 71-72: every language gets the root of the file. -/
def rootAll (root : T) (heap : GHeap T G) (langs : List (String × ℕ)) : GHeap T G :=
  langs.foldl (fun h l => setRoot h l.2 root) heap

/-- `cli/subcommands/hshmm/train.py` 82-86: the phone-loops of the listed languages. -/
def loadLoops (loop : String → Loop U) (lines : List (String × String)) : List (String × Loop U) :=
  lines.foldl (fun d l => dictSet d l.2 (loop l.1)) []

/-- `cli/subcommands/hshmm/train.py` 100-105: the units of the listed languages are those of the largest group of their phone-loop, as many
as the file has. -/
def trainUnits (groupidx : ℕ) : List (String × Loop U) → List (String × List U) → Except Err (List (String × List U))
  | [], units => .ok units
  | (lang, loop) :: ls, units => do
    let g ← largestIdx (loop.map Prod.fst) groupidx
    let old ← dictGet units lang
    trainUnits groupidx ls (dictSet units lang ((loop.getD g (0, [])).2.take old.length))

/-- `cli/subcommands/hshmm/train.py` 141-145: the models and their units, in the order of the GSMs. -/
def modelsAndUnits (units : List (String × List U)) : List (String × ℕ) → Except Err (List (ℕ × List U))
  | [] => .ok []
  | (lang, a) :: ls => do
    let us ← dictGet units lang
    let rest ← modelsAndUnits units ls
    pure ((a, us) :: rest)

/-- The latent posteriors, in the order of their dictionary (`cli/subcommands/hshmm/train.py` 120-124), go with the models by position (`gsm.py` 816). -/
def trainPairs (gsms : List (String × ℕ)) (units : List (String × List U)) (posts : List (String × P)) :
    Except Err (List ((ℕ × List U) × P)) := do
  let ms ← modelsAndUnits units gsms
  pure (ms.zip (posts.map Prod.snd))

end Verif.HInit
