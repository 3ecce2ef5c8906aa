import Verif.Model.GSM
import Verif.Model.Inference
import Verif.Model.VBTrain
import Verif.Model.Commands

/-!
# Model of the hierarchical subspace models
(`HierarchicalAffineTransform` and `HierarchicalGSM` of `beer/models/gsm.py`,
`cli/subcommands/hshmm/train.py`)

The random draws are arguments.  Bayesian parameters are identities (natural numbers), as in
`Model/Inference`; the divergence between the posterior and the prior of a parameter is an arbitrary
function of its identity.  The languages may have different numbers of units.
-/

namespace Verif.GSM

open Real Verif.Dists

/-- The noise drawn for one language: `L` samples per unit, `P` samples of the posterior of the
language for the transform (`B` samples of the root transform each), and `U` samples of the posterior
of the language for its divergence. -/
structure HNoise (H I O N L P B U : ℕ) where
  unit : Fin N → Fin L → Fin I → ℝ
  lang : Fin P → Fin H → ℝ
  weights : Fin B → Fin (H * (I * O + O)) → ℝ
  bias : Fin B → Fin (I * O + O) → ℝ
  univ : Fin U → Fin H → ℝ

/-- A language: its GSM (`gsm.py` 528-532) with a hierarchical transform (199-207), its units and their
latent posteriors. `priorGroups` are the mean-field groups of the prior over the latent vectors of the
units. -/
structure HLang (V : Type) (H I O Qu Q N : ℕ) where
  langPost : MLDC H
  posts : Fin N → MLDC I
  stats : Fin N → Fin Q → ℝ
  pdfvec : (Fin O → ℝ) → Fin Q → ℝ
  priorStats : (Fin I → ℝ) → Fin Qu → ℝ
  priorLlh : (Fin N → Fin Qu → ℝ) → Fin N → ℝ
  priorGroups : List (List ℕ)
  priorAcc : (Fin N → Fin Qu → ℝ) → Acc V

/-- `HierarchicalGSM`, lines 803-806. -/
structure HRoot (V : Type) (H I O Qr : ℕ) where
  transform : Affine H (I * O + O)
  weightsId : ℕ
  biasId : ℕ
  priorStats : (Fin H → ℝ) → Fin Qr → ℝ
  priorLlh : (Fin 1 → Fin Qr → ℝ) → Fin 1 → ℝ
  priorGroups : List (List ℕ)
  priorAcc : (Fin 1 → Fin Qr → ℝ) → Acc V

variable {V : Type} {H I O Qu Qr Q N L P B U : ℕ}

/-- `mean_field_factorization` of a language, lines 589-591 with 258-262. -/
def HLang.groups (g : HLang V H I O Qu Q N) : List (List ℕ) := g.priorGroups ++ []

/-- `mean_field_factorization` of the root, lines 831-833 with 169-170. -/
def HRoot.groups (r : HRoot V H I O Qr) : List (List ℕ) :=
  r.priorGroups ++ [[r.weightsId, r.biasId]]

/-- `kl_div_posterior_prior`, `basemodel.py` 64-77. -/
def klOfGroups (kl : ℕ → ℝ) (groups : List (List ℕ)) : ℝ := (groups.flatten.map kl).sum

/-- The transform of a language as called by `_rvecs_from_samples` (lines 476-480), lines 233-256: the second
argument is positional, hence the number of samples of the posterior of the language. -/
noncomputable def hierTransform (r : HRoot V H I O Qr) (g : HLang V H I O Qu Q N)
    (e : HNoise H I O N L P B U) {M : ℕ} (X : Fin M → Fin I → ℝ) :
    Fin M → Fin (1 * (P * B)) → Fin O → ℝ :=
  hierForward r.transform (fun _ a => g.langPost.sample (e.lang a)) e.weights e.bias X

/-- Expected pdf-vectors of the units of a language, lines 577-581 and 620-621. -/
noncomputable def hierPdfvecs (r : HRoot V H I O Qr) (g : HLang V H I O Qu Q N)
    (e : HNoise H I O N L P B U) : Fin N → Fin Q → ℝ :=
  let s := fun n l => (g.posts n).sample (e.unit n l)
  meanPdfvecs g.pdfvec (rvecsFromSamples (fun X => hierTransform r g e X) s)

/-- `GSM.expected_log_likelihood` of a language, lines 605-626. -/
noncomputable def hierUnitLlh (r : HRoot V H I O Qr) (g : HLang V H I O Qu Q N)
    (e : HNoise H I O N L P B U) : Fin N → ℝ :=
  let s := fun n l => (g.posts n).sample (e.unit n l)
  let localKl := fun n => xentropy g.priorStats g.priorLlh s n - entropyOf g.posts s n
  let pdfvecs := hierPdfvecs r g e
  fun n => (∑ q, pdfvecs n q * g.stats n q) - localKl n

/-- The averaged statistics kept by `_xentropy` (`lp_stats`), lines 461-463. -/
noncomputable def lpStats {M S J K : ℕ} (priorStats : (Fin J → ℝ) → Fin K → ℝ)
    (s : Fin M → Fin S → Fin J → ℝ) : Fin M → Fin K → ℝ :=
  let stats := split fun k => priorStats (merge s k)
  fun n q => meanOver fun l => stats n l q

/-- `evidence_lower_bound(model, sub_model, latent_posts=...)` of a language, lines 817-819. -/
noncomputable def hierSubElbo (kl : ℕ → ℝ) (r : HRoot V H I O Qr) (g : HLang V H I O Qu Q N)
    (e : HNoise H I O N L P B U) : Except Err (Elbo ℝ V) :=
  let m : BModel ℝ V (Fin N) :=
    { expLlh := fun _ => ∑ n, hierUnitLlh r g e n
      kl := klOfGroups kl g.groups
      accumulate := fun _ => g.priorAcc
        (lpStats g.priorStats fun n l => (g.posts n).sample (e.unit n l))
      params := g.groups.flatten.toFinset }
  evidenceLowerBound (some m) (some (List.finRange N)) (-1)

/-- `beer.evidence_lower_bound(root_gsm, models_and_submodels, ...)`, `hshmm/train.py` 155, with
`HierarchicalGSM.expected_log_likelihood` and `accumulate`, `gsm.py` 811-829: of the objectives of the
languages only the values are kept. -/
noncomputable def hierElbo {G : ℕ} {Ns : Fin G → ℕ} (kl : ℕ → ℝ) (r : HRoot V H I O Qr)
    (langs : (l : Fin G) → HLang V H I O Qu Q (Ns l))
    (e : (l : Fin G) → HNoise H I O (Ns l) L P B U) : Except Err (Elbo ℝ V) :=
  match VB.seqFin fun l => hierSubElbo kl r (langs l) (e l) with
  | .error err => .error err
  | .ok subs =>
    let s : Fin G → Fin 1 → Fin U → Fin H → ℝ := fun l _ u => (langs l).langPost.sample ((e l).univ u)
    let localKl : Fin G → ℝ := fun l =>
      xentropy r.priorStats r.priorLlh (s l) 0 - entropyOf (fun _ => (langs l).langPost) (s l) 0
    let stats : Fin 1 → Fin Qr → ℝ := fun i q => ∑ l, lpStats r.priorStats (s l) i q
    let m : BModel ℝ V (Fin G) :=
      { expLlh := fun _ => ∑ l, ((subs l).value - localKl l)
        kl := klOfGroups kl r.groups
        accumulate := fun _ => r.priorAcc stats
        params := r.groups.flatten.toFinset }
    evidenceLowerBound (some m) (some (List.finRange G)) (-1)

/-- The groups of the conjugate optimizer, `hshmm/train.py` 108-112: those of the languages, one after
the other (`conj` tells the parameters of type `ConjugateBayesianParameter`, `basemodel.py` 43-62). -/
def hierGroups {G : ℕ} {Ns : Fin G → ℕ} (skipRoot : Bool) (conj : ℕ → Bool)
    (langs : (l : Fin G) → HLang V H I O Qu Q (Ns l)) : List (List ℕ) :=
  if skipRoot then [[]]
  else (List.finRange G).flatMap fun l =>
    ((langs l).groups.map fun grp => grp.filter conj).filter fun grp => 0 < grp.length

/-- `beer.evidence_lower_bound(gsm, units, ...)`, `shmm/train.py` 115, for a `GSM` (`gsm.py` 589-591,
`gsm.py` 605-629): `priorGroups` and `priorAcc` are those of the latent prior. -/
noncomputable def gsmElbo {R Qp : ℕ} (kl : ℕ → ℝ) (g : Model I R Qp Q N) (priorGroups : List (List ℕ))
    (weightsId biasId : ℕ) (priorAcc : (Fin N → Fin Qp → ℝ) → Acc V) (posts : Fin N → MLDC I)
    (stats : Fin N → Fin Q → ℝ) (eps : Fin N → Fin L → Fin I → ℝ) (epsW : Fin P → Fin (I * R) → ℝ)
    (epsB : Fin P → Fin R → ℝ) : Except Err (Elbo ℝ V) :=
  let groups := priorGroups ++ [[weightsId, biasId]]
  let m : BModel ℝ V (Fin N) :=
    { expLlh := fun _ => ∑ n, g.expLlh posts stats eps epsW epsB n
      kl := klOfGroups kl groups
      accumulate := fun _ => priorAcc (lpStats g.priorStats fun n l => (posts n).sample (eps n l))
      params := groups.flatten.toFinset }
  evidenceLowerBound (some m) (some (List.finRange N)) (-1)

/-- `Normal.accumulate`, `models/normal.py` 143-144: one entry, for the parameter `u`, the sum over the
rows. -/
def normalAcc {K : ℕ} (u : ℕ) (st : Fin N → Fin K → ℝ) : Acc (Fin K → ℝ) :=
  fun k => if k = u then some (fun q => ∑ n, st n q) else none

/-- The groups of the conjugate optimizer, `shmm/train.py` 86-90. -/
def gsmGroups (posteriorsOnly : Bool) (conj : ℕ → Bool) (priorGroups : List (List ℕ))
    (weightsId biasId : ℕ) : List (List ℕ) :=
  if posteriorsOnly then [[]]
  else ((priorGroups ++ [[weightsId, biasId]]).map fun grp => grp.filter conj).filter
    fun grp => 0 < grp.length

end Verif.GSM
