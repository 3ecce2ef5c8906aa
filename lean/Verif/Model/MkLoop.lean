import Verif.Model.PhoneLoop
import Verif.Model.Create
import Verif.Model.GSM

/-!
# Creation of phone loops

* `beer/cli/subcommands/hmm/mkphoneloop.py`
* `beer/cli/subcommands/hmm/mkphoneloopbigram.py`
* `beer/models/categorical.py` 22-35, 86-107, 173-202 (creation)
* `beer/models/categoricalset.py` 19-34, 167-240 (creation, statistics)

The graph is given by its transitions `T`, the two dictionaries by their values in the order of insertion. `P` is the
number of units (`len(start_pdf)`). `argparse` does not check a default value against `choices`: any name reaches the
table `priors`. `eps` is `torch.finfo(dtype).eps`, as in `SBCategorical.mean`.
-/

namespace Verif.MkLoop

open Verif Verif.Dists Verif.PhoneLoop Verif.VB

variable {n P : ℕ} [NeZero P]

/-! ## Weights of the units -/

/-- A model of the weights: `Categorical`, `SBCategorical`, `SBCategoricalHyperPrior`. -/
inductive Cat (P : ℕ) where
  | categorical (w : CParam (List ℝ))
  | sb (w : CParam (Fin P → ℝ × ℝ)) (ordering : Equiv.Perm (Fin P))
  | sbHyper (s : SBState P)

/-- A set of models of the weights, one for each unit: `CategoricalSet`, `SBCategoricalSet` (its sticks are the rows of
one tensor; the ordering is that of the root). -/
inductive CatSet (P : ℕ) where
  | categoricalSet (w : Fin P → CParam (List ℝ))
  | sbSet (w : CParam (Fin (P * P) → ℝ × ℝ)) (ordering : Equiv.Perm (Fin P)) (concentration : ℝ)

/-- `_default_sb_param`, `categorical.py` 22-27. -/
def defaultSbParam (P : ℕ) (strength : ℝ) : CParam (Fin P → ℝ × ℝ) := ⟨fun _ => (1, strength), fun _ => (1, strength)⟩

/-- `_default_concentration_param`, `categorical.py` 30-35: the parameters of the Gamma distribution. -/
noncomputable def defaultConcentration (mean strength : ℝ) : GammaP ℝ := ⟨[1 * strength], [strength / mean]⟩

/-- `build_categorical`, `mkphoneloop.py` 12-14. -/
noncomputable def buildCategorical (P : ℕ) (concentration : ℝ) : Cat P :=
  .categorical (catCreate (List.replicate P (1 / (P : ℝ))) concentration)

/-- `build_categorical_2g`, `mkphoneloop.py` 16-18. -/
noncomputable def buildCategorical2g (P : ℕ) (concentration : ℝ) : CatSet P :=
  .categoricalSet fun _ => catCreate (List.replicate P (1 / (P : ℝ))) concentration

/-- `build_sb`, `mkphoneloop.py` 20-22 (`SBCategorical.__init__`, `categorical.py` 100-107: the ordering is that of the
units). -/
def buildSb (P : ℕ) (concentration : ℝ) : Cat P := .sb (defaultSbParam P concentration) (Equiv.refl _)

/-- `build_sbhp`, `mkphoneloop.py` 31-34, `SBCategoricalHyperPrior.create`, `categorical.py` 187-191. -/
noncomputable def buildSbhp (P : ℕ) (concentration : ℝ) : Except Err (Cat P) :=
  match sbInit (defaultSbParam P concentration).prior (defaultSbParam P concentration).post
      (defaultConcentration (1 * concentration) 1) (defaultConcentration (1 * concentration) 1) with
  | .error e => .error e
  | .ok s => .ok (.sbHyper s)

/-- `SBCategoricalSet.create` with one component for each unit, `categoricalset.py` 167-179, 210-215; the root is given
by the posterior of its sticks and its ordering. -/
noncomputable def sbSetCreate (eps : ℝ) (post : Fin P → ℝ × ℝ) (ordering : Equiv.Perm (Fin P)) (strength : ℝ) :
    CatSet P :=
  .sbSet ⟨GSM.merge fun _ : Fin P => sbSetPrior strength (sbMean eps ordering post), GSM.merge fun _ : Fin P => post⟩
    ordering strength

/-- `build_hsb`, `mkphoneloop.py` 24-28. -/
noncomputable def buildHsb (eps : ℝ) (P : ℕ) [NeZero P] (concentration : ℝ) : CatSet P :=
  sbSetCreate eps (defaultSbParam P concentration).post (Equiv.refl _) concentration

/-- The table `priors`, `mkphoneloop.py` 39-45. -/
noncomputable def priors (eps : ℝ) (name : String) (P : ℕ) [NeZero P] (concentration : ℝ) :
    Except Err (Cat P ⊕ CatSet P) :=
  if name = "dirichlet" then .ok (.inl (buildCategorical P concentration))
  else if name = "dirichlet2" then .ok (.inr (buildCategorical2g P concentration))
  else if name = "dirichlet_process" then .ok (.inl (buildSb P concentration))
  else if name = "gamma_dirichlet_process" then
    match buildSbhp P concentration with
    | .error e => .error e
    | .ok c => .ok (.inl c)
  else if name = "hierarchical_dirichlet_process" then .ok (.inr (buildHsb eps P concentration))
  else .error .keyError

/-- `bigram_prior`, `mkphoneloop.py` 37. -/
def bigramPrior : List String := ["hierarchical_dirichlet_process", "dirichlet2"]

/-! ## Phone loops -/

/-- Expected log-weights of the units, `phoneloop.py` 57-59. -/
noncomputable def logWeights : Cat P → Fin P → ℝ
  | .categorical w => unigramLogWeights w.post
  | .sb w ordering => fun j => sbExpLlh ordering w.post (Pi.single j 1)
  | .sbHyper s => fun j => sbExpLlh s.ordering s.sbPost (Pi.single j 1)

/-- Expected log-weights of a set, `phoneloop.py` 149-151. -/
noncomputable def setLogWeights : CatSet P → Fin P → Fin P → ℝ
  | .categoricalSet w => setLogLikelihood fun k => (w k).post
  | .sbSet w ordering _ => sbSetLogLikelihood ordering (GSM.split w.post)

/-- A phone loop: the model of the weights and the transitions. -/
inductive Loop (n P : ℕ) where
  | unigram (cat : Cat P) (T : TMat n)
  | bigram (set : CatSet P) (T : TMat n)

/-- `PhoneLoop.__init__`, `phoneloop.py` 44-51. -/
noncomputable def newUnigram (starts ends : Fin P → Fin n) (cat : Cat P) (T : TMat n) : Loop n P :=
  .unigram cat (refresh starts (List.ofFn ends) (logWeights cat) T)

/-- `BigramPhoneLoop.__init__`, `phoneloop.py` 136-143. -/
noncomputable def newBigram (starts ends : Fin P → Fin n) (set : CatSet P) (T : TMat n) : Loop n P :=
  .bigram set (bigramRefresh starts ends (setLogWeights set) T)

/-- The concentration, `mkphoneloop.py` 71-73: an option equal to zero counts as not given. -/
noncomputable def concentration (P : ℕ) (arg : Option ℝ) : ℝ :=
  match arg with
  | none => (P : ℝ) / 2
  | some c => if c = 0 then (P : ℝ) / 2 else c

/-- `mkphoneloop.py` 68-78. A model of weights of the wrong kind for the class is `typeMismatch` (it does not happen,
`C134_class`). -/
noncomputable def mkphoneloop (eps : ℝ) (arg : Option ℝ) (name : String) (starts ends : Fin P → Fin n) (T : TMat n) :
    Except Err (Loop n P) :=
  match priors eps name P (concentration P arg) with
  | .error e => .error e
  | .ok w =>
    if name ∈ bigramPrior then
      match w with
      | .inr set => .ok (newBigram starts ends set T)
      | .inl _ => .error .typeMismatch
    else
      match w with
      | .inl cat => .ok (newUnigram starts ends cat T)
      | .inr _ => .error .typeMismatch

/-! ## Bigram phone loops -/

/-- `build_hsb`, `mkphoneloopbigram.py` 17-18: `Categorical` has no attribute `stickbreaking`. -/
noncomputable def buildHsbFrom (eps : ℝ) : Cat P → Except Err (CatSet P)
  | .categorical _ => .error .attributeError
  | .sb w ordering => .ok (sbSetCreate eps w.post ordering ((P : ℝ) / 2))
  | .sbHyper s => .ok (sbSetCreate eps s.sbPost s.ordering ((P : ℝ) / 2))

/-- `mkphoneloopbigram.py` 40-45: the name is looked up, then the attribute `categorical` is read (a bigram phone loop
has none), then the set is built. The default value of the name is `gamma_dirichlet_process` (line 28). -/
noncomputable def mkphoneloopbigram (eps : ℝ) (name : Option String) (starts ends : Fin P → Fin n) (ploop : Loop n P) :
    Except Err (Loop n P) :=
  let name := name.getD "gamma_dirichlet_process"
  if name = "dirichlet2" then
    match ploop with
    | .bigram _ _ => .error .attributeError
    | .unigram _ T => .ok (newBigram starts ends (buildCategorical2g P 1) T)
  else if name = "hierarchical_dirichlet_process" then
    match ploop with
    | .bigram _ _ => .error .attributeError
    | .unigram cat T =>
      match buildHsbFrom eps cat with
      | .error e => .error e
      | .ok set => .ok (newBigram starts ends set T)
  else .error .keyError

/-! ## Training of the sticks of a set -/

/-- `SBCategoricalSet._transform_stats`, `categoricalset.py` 231-240: along the second dimension, the operations of
`SBCategorical._transform_stats`, with the ordering of the root. -/
noncomputable def sbSetTransform (ordering : Equiv.Perm (Fin P)) (stats : Fin P → Fin P → ℝ) : Fin (P * P) → ℝ × ℝ :=
  GSM.merge fun i => sbTransform ordering (stats i)

/-- `stickbreaking.natural_grad_update(lrate)` with stored counts. -/
noncomputable def sbSetUpdate (ordering : Equiv.Perm (Fin P)) (w : CParam (Fin (P * P) → ℝ × ℝ)) (stats : Fin P → Fin P → ℝ)
    (lrate : ℝ) : CParam (Fin (P * P) → ℝ × ℝ) :=
  ⟨w.prior, fun p => betaUpdate (w.prior p) (w.post p) (sbSetTransform ordering stats p) lrate⟩

/-- A training: the counts and learning rate of each update. -/
noncomputable def sbSetTrain (ordering : Equiv.Perm (Fin P)) (w : CParam (Fin (P * P) → ℝ × ℝ)) :
    List ((Fin P → Fin P → ℝ) × ℝ) → CParam (Fin (P * P) → ℝ × ℝ)
  | [] => w
  | (stats, lrate) :: ops => sbSetTrain ordering (sbSetUpdate ordering w stats lrate) ops

/-- `SBCategoricalSet.mean`, `categoricalset.py` 280-288. -/
noncomputable def sbSetMean (eps : ℝ) (ordering : Equiv.Perm (Fin P)) (post : Fin (P * P) → ℝ × ℝ) :
    Fin P → Fin P → ℝ :=
  fun i => sbMean eps ordering (GSM.split post i)

end Verif.MkLoop
