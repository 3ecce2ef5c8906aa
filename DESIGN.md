# Formal model of beer (beer-asr/beer): design

## What this is

`/verif/lean` is a Lean 4 (4.33.0, Mathlib) model of the parts of `/repo` that
`properties.jsonl` talks about, with machine-checked proofs of those properties.
Nothing of `/repo` was executed; the model was written by reading the source.

Layout (`lean/Verif/`):

* `Model/*.lean`  definitions mirroring the Python code, each with a comment citing file and lines;
* `Spec/*.lean`   small independent specifications (path sums, edit scripts, accepted languages, ...);
* `Lemmas/*.lean` helper lemmas;
* `Props/*.lean`  the property theorems named in `MANIFEST.json`, each with an `example`
  exhibiting a non-trivial instance of its hypotheses.

`MANIFEST.json` maps each property to its theorems; a theorem whose name ends in `_partial` proves a
weaker claim than the property, and the note says what is missing. Where the code violates a
property, the negation is proved with a concrete witness and the finding is listed below.

## Modelling conventions

* **Numbers.** Floats are modelled by exact numbers: `ℝ`, or an arbitrary (ordered) field so that
  witnesses can be evaluated over `ℚ`. Rounding, overflow and NaN propagation are *not* modelled.
  Log-probabilities with `-inf` are modelled as `WithBot ℝ` (Viterbi: any linearly ordered
  additive monoid with a bottom); `logsumexp` as the log of the sum of exponentials on `WithBot ℝ`.
* **Tensors.** Vectors/matrices are `List`s where the code slices, concatenates or reshapes
  (the layout is what is being verified) and `Fin n → _` / `Matrix` where only algebra matters.
  Batched (2-D) variants of a row-wise operation are modelled by the row operation.
* **Exceptions** are values: `Except Err α` with one constructor per Python exception.
* **Objects with identity** (parameters keyed by uuid) are natural-number keys;
  dictionaries are association lists in insertion order or functions `Key → Option _`.
* **Sets** whose iteration order is unspecified in Python are modelled with a list and, where the
  result could depend on the order, the theorem quantifies over all orders (or, C75, the dependence
  on the order is what is proved).
* **Python integers/slices**: `Int` with floor division/modulo as in CPython.
* **Random choices** (initial noise, random connections, samples) are arguments of the model.
* **Argmax and sort** return *some* maximiser / *some* sorting permutation; theorems quantify over it.

## Trusted base

* The Lean kernel (and that the `.olean`s of Mathlib were checked by it).
* Axioms: only Lean's standard three (`propext`, `Classical.choice`, `Quot.sound`). `AXIOMS.md` lists,
  for every theorem of the manifest, the axioms it depends on (output of `#print axioms`). No theorem
  uses `sorry`, `native_decide`, `bv_decide` or an axiom of its own.
* The specifications in `Spec/`. Probability laws are Mathlib's; the Dirichlet law is that of normalised Gamma
  variables, the Wishart law is given by Bartlett's decomposition (`Spec/Wishart`).
* The reading of the Python/torch semantics written down in the model comments (broadcasting,
  `torch.argmax` returns *some* maximiser, dict insertion order, `set` semantics through
  `__hash__`/`__eq__`, `named_children` yields a child once, ...).
* The correspondence between each definition and the cited lines, established by reading. The line
  ranges were compared with the source by script: where the comment names one function or class, the
  range must lie within it (about half of the citations). For the other citations of the form
  `file.py` + lines, the first and last cited lines were looked at. About forty ranges were stale, and
  one anchor of C85 named a function that does not exist; they were corrected. The definitions
  themselves did not have to change.
* Exact arithmetic in place of floating point.
* Contracts assumed as hypotheses (visible in the theorem statements): `torch.symeig` returns
  ascending eigenvalues and orthonormal eigenvectors (C65), `torch.cholesky` a lower triangular factor
  with positive diagonal.

## What is modelled

| Lean module | source (lines) |
|-------------|----------------|
| `Model/Py` | Python exceptions as values |
| `Model/Graph` | `beer/graph.py` 1-240: states, arcs, `normalize`, `replace_state`, `find_next_pdf_ids`, `compile` |
| `Model/LogDomain`, `Model/HMM` | `beer/graph.py` 243-345: `best_path`, forward, backward, `posteriors` |
| `Model/Decode` | `beer/cli/subcommands/hmm/decode.py`, `posteriors.py`: conversion of states to phones |
| `Model/Pipeline` | `beer/cli/subcommands/hmm/mkphones.py`, `mkphoneloopgraph.py`, `mkdecodegraph.py`, `mkaligraph.py` (emission densities: only their number) |
| `Model/Commands` | `beer/cli/subcommands/hmm/train.py`, `accumulate.py`, `update.py` (control flow, batches, missing utterances, learning rate) |
| `Model/Inference` | `beer/inference/objectives.py`, `beer/inference/optimizers.py` 1-31, `beer/models/parameters.py` |
| `Model/Dists` | `beer/dists/dirichlet.py`, `gamma.py`, `normalgamma.py`, `isonormalgamma.py`, `normaldiag.py`: natural parameters, statistics; `models/gamma.py` 82-88 |
| `Model/DistsReal` | expected statistics, log-normalisers of the same, `beer/dists/basedist.py` 243-271 |
| `Model/Likelihood` | likelihood classes of the same files; `sufficient_statistics_dim` |
| `Model/NormalWishart` | `beer/dists/normalwishart.py` |
| `Model/Mixture` | `beer/models/mixture.py` 45-102, `mixtureset.py` 85-107, `categorical.py` 60-80 |
| `Model/ModelSet` | `beer/models/modelset.py`, `mixtureset.py` 58-132, `basemodel.py` 29-104, `gsm.py` 414-490 (slicing of super-vectors) |
| `Model/GSM` | `beer/models/gsm.py` 25-329 (parametrisations, transforms), 421-490, 503-629 (GSM), 645-798 (GSMSet, without the divergence of the class means) |
| `Model/HierGSM` | `beer/models/gsm.py` 233-262 and 801-833 (hierarchical transform and model), `cli/subcommands/hshmm/train.py` 107-112, 153-170 and `cli/subcommands/shmm/train.py` 86-90, 113-117 for the conjugate parameters |
| `Model/SPhoneLoop` | `cli/subcommands/shmm/mksphoneloop.py` 15-48, 78-131, 145-153, 160-162; `cli/subcommands/hshmm/mksphoneloop.py` 81-112 (choice of the units, initial statistics, labels, option `--posteriors`) |
| `Model/StickBreaking` | `beer/models/categorical.py` 82-209, `categoricalset.py` 167-179, 242-256 |
| `Model/PhoneLoop` | `beer/models/phoneloop.py`, `hmm.py` 40-92, `categoricalset.py` 46-55, 299-304 |
| `Model/Utils`, `Model/SymPosDef` | `beer/utils.py` 39-161 |
| `Model/Nnet` | `beer/nnet/arnet.py`, `beer/nnet/problayers.py` 164-207 |
| `Model/Features` | `beer/features.py`, `beer/cli/subcommands/dataset/create.py` 14-38 |
| `Model/Scoring` | `recipes/aud/utils/ter.py` 21-66, `score_boundaries.py`, `score_boundaries2.py`, `ali2trans.py`, `recipes/timit_v2/utils/score.py` 27-92 (distances, boundary counts, collapsing) |
| `Model/Eval` | `recipes/aud/utils/ter.py` 12-18, 69-135, `maptrans.py`, `maxoverlap_mapping.py`, `recipes/timit_v2/utils/score.py` 6-97: files as lists of fields |
| `Model/EvalInfo` | `recipes/aud/utils/nmi.py` 18-51, `entropy_rate.py` 10-36, `recipes/timit_v2/utils/compare-alignments.py` 50-86, `mutual-information.py` 31-58: matrices indexed by names, exact real logarithms (division by zero excluded by hypotheses) |
| `Model/Scripts` | `recipes/timit_v2/utils/features-extract-central-frame.py` 13-26, 54-60, `features-stats.py` 5-28, `pdf2unit.py` 8-56, `convert_states_to_phone.py` 20-70, `recipes/aud/utils/prepare_phone_trans.py` 16-35, `convert_align.py` 14-22: files as lists of lines of fields |
| `Model/ProbLayers` | `beer/nnet/problayers.py` 56-161 |
| `Model/NetConf` | `beer/nnet/neuralnetwork.py`, `beer/nnet/residual.py`: texts as lists of characters, `torch.nn` as a partial function from names to constructors, layers as functions without effect on their input |
| `Model/Views` | `beer/dists/basedist.py` 39-55, 131-133, `beer/models/parameters.py` 17-141, `beer/models/gsm.py` 349-406, 537, `modelset.py` 77-85: heap of parameters objects; rows are opaque |
| `Model/Spectrum` | `beer/features.py` 31-79 (with `align_filt_center`, mel scale), 102-143, `beer/cli/subcommands/features/extract.py` 36-40, 66-71, 74, 107-166: exact real numbers, the FFT is its definition as a sum; reading the files is not modelled |
| `Model/Dataset` | `beer/cli/subcommands/features/extract.py` 169-171, `beer/cli/subcommands/features/archive.py` 18-26, `beer/cli/dataset.py` 28-35, 58-60, 73-75, 78-80: files and archives are lists of names with contents |
| `Model/MkLoop` | `beer/cli/subcommands/hmm/mkphoneloop.py` 12-45, 71-78, `beer/cli/subcommands/hmm/mkphoneloopbigram.py` 12-28, 40-45, `beer/models/categoricalset.py` 167-240, 280-288, `beer/models/phoneloop.py` 53-65, 145-157: the pickled files are not modelled |
| `Model/SetPrior` | `beer/cli/subcommands/shmm/setprior.py` 35-119, `beer/cli/subcommands/shmm/init.py` 29-52, `beer/models/gsm.py` 444-456, 577-581: one sample, as in the commands; the draws are arguments |
| `Model/HInit` | `beer/cli/subcommands/hshmm/init.py` 42-96, `beer/cli/subcommands/hshmm/train.py` 66-105, 120-124, 140-145, `beer/cli/subcommands/hshmm/mksphoneloop.py` 100-112, 160-184: files are their contents, language models are addresses of a heap, `expected_pdfvecs` and the writing of a unit are any functions; moving to a GPU is left out |
| `Model/TrainOpts` | `beer/cli/subcommands/shmm/train.py` 86-122, `beer/cli/subcommands/hshmm/train.py` 108-176, `beer/inference/optimizers.py`: the gradient is any function of the epoch and of the parameters; Adam, SGD, `zero_grad` (both ways), clipping and `load_state_dict` as torch documents them; a state saved by the other kind of optimizer is left out |
| `Model/Recipes` | `recipes/aud/local/timit/phone_ali.py` 6-31, `recipes/timit_v2/local/timit-norm-trans.py` 23-61, `recipes/timit_v2/local/timit_lang_prep.py` 18-41, `recipes/aud/local/timit/timit_lang_prep.py` 18-44, `recipes/timit_v2/utils/features-stack-parallel.py` 20-29, `prepare_trans.py` 8-34, `prepare_state_labels.py` 10-46, `prepare-spk-labels.py` 44-60: `int()` is an argument, products are exact, the order of sets is an argument, an array of lists of different lengths is `ValueError` |
| `Model/DecodeText` | `recipes/timit_v2/utils/create-decode-graph.py` 25-53, `recipes/timit_v2/utils/prepare-decode-graph.py` 20-52: weights are printed and read exactly, the order of the set of arcs is an argument |
| `Model/Transcripts` | `recipes/aud/local/alffa/prepare_transcripts.py` 23-72, `recipes/aud/local/google_lr/prepare_transcripts.py` 7-15 and 38-89, `recipes/aud/utils/add_prefix.py` 18-29, `recipes/aud/utils/prepare_lang_aud.py` 14-18: files are lists of lists of fields, the classes of Unicode characters and `lower` are arguments |
| `Model/Caches` | `basemodel.py` 12-28, `objectives.py` 181-186, `beer/models/hmm.py` 73-100 and 105-121, `phoneloop.py` 83-101: the caches as a map from module identities; of the phone loop only `resps` and `trans_resps` |
| `Model/Labelled` | `mixture.py` 70-102 with `labels`; `GSMSet`, `gsm.py` 696-789, as the components of a `Mixture` and one epoch of `cli/subcommands/shmm/train.py` 113-117: draws are arguments, diagonal covariances, statistics padded to sequences; gradient steps are not modelled |
| `Model/DecodeCmd` | `beer/models/hmm.py` 36-38, 105-114 (`decode`), `beer/cli/subcommands/hmm/decode.py` 42-90, `mkaligraph.py` 42-67. The features are seen through the log-likelihoods of the frames; the data set is the list of its utterances in the order `utterances` gives; `np.load` of an archive of graphs is taken to succeed (recent versions of numpy refuse arrays of objects unless `allow_pickle` is given, which the code does not give) |
| `Model/PostCmd` | `beer/models/hmm.py` 116-121 (`posteriors`), `beer/cli/subcommands/hmm/posteriors.py` 30-74, `beer/models/normalset.py` 111-119, `beer/models/mixtureset.py` 82-98 and `beer/models/modelset.py` 68-75, one frame at a time; utterances are given by the sufficient statistics of their frames, natural parameters and log weights are numbers |
| `Model/LoopTrain` | `beer/models/phoneloop.py` 44-65 and 136-157 on the logarithms of a compiled decoding graph, with the dictionaries `start_pdf` and `end_pdf`; the log-weights of an update are a table of numbers |
| `Model/LoopVB` | `beer/models/phoneloop.py` 44-101 on top of `beer/models/hmm.py` 73-100: one step updates the emissions, the weights and the transitions; utterances with a graph of their alignment or without; `modelset.py` 148-154 |
| `Model/SBTrain` | `beer/models/categorical.py` 22-27, 82-163 with `parameters.py` 134-141 and `objectives.py` 177-185: training of stick-breaking weights, alone and as the weights of a mixture (`mixture.py` 40-102); the order given by `sort` is any which sorts the counts in decreasing order |
| `Model/SBHyper` | `beer/models/categorical.py` 30-35, 166-209: training with the hyper-prior over the concentration |
| `Model/LoopWeights` | `beer/models/phoneloop.py` 44-101 with `SBCategorical` and `SBCategoricalHyperPrior` (`categorical.py` 82-209), `beer/models/phoneloop.py` 136-191 with `CategoricalSet` and `SBCategoricalSet` (`categoricalset.py` 15-66 and 185-307): training of the weights together with the emissions (`hmm.py` 73-92); one update of all the parameters per step, sums over utterances before the sufficient statistics |
| `Model/BoundaryCmd` | `recipes/aud/utils/score_boundaries.py` 44-117: the whole script with the transcriptions as lists of lines; argument parsing and printing left out, the scores are fractions rather than rounded percentages |
| `Model/Boundary2Cmd` | `recipes/aud/utils/score_boundaries2.py` 66-101: the whole script; argument parsing and printing left out, the scores are fractions |
| `Model/TimitUnits` | `recipes/timit_v2/utils/hmm-create-graph-and-emissions.py` 14-168: the units and the number of densities; the parameters of the densities are not modelled, a configuration is the list of the fields read |
| `Model/Detached` | the function of the log-likelihoods autograd differentiates in `hmm.py` 73-92 and `mixture.py` 70-93: responsibilities held constant; autograd itself is not modelled |
| `Model/PathTrain` | `hmm.py` 40-62, 73-96 with `viterbi` or `state_path`, as trained by `objectives.py` 177-185 and `recipes/timit_v2/utils/hmm-train-with-alignments.py`; the look-up of line 58 by its outcome (`IndexError` or nothing, its value is not used) |
| `Model/MiniBatch` | `objectives.py` 92-107, 177-190 and `optimizers.py` 27-31 on successive mini-batches, for a model with one parameter and no latent variables (`normal.py` 133-144, `categorical.py` 64-79) |
| `Model/Fbank` | `beer/features.py` 145-204 (`fbank`): exact real numbers instead of 32 bits; lengths in samples (the conversions from seconds, lines 176-177, left out) |
| `Model/GammaModel` | `beer/models/gamma.py` 15-88: creation, mean, expected log-likelihood, statistics, update of one model; `objectives.py` 177-190 without the divergence; broadcasting of one-element tensors at creation left out |
| `Model/Jacobian` | `beer/utils.py` 186-223: `jacobians`, `approximate_hessian`, given the gradients (automatic differentiation left out) |
| `Model/WishartExp` | `beer/dists/normalwishart.py` 170-236, `beer/dists/basedist.py` 243-263: expected statistics, log-normaliser and `kl_div` of the Normal-Wishart |
| `Model/VBTrain` | `beer/models/parameters.py` 79-141, `normalset.py` 111-123, `categoricalset.py` 40-55, `mixtureset.py` 58-112, `modelset.py` 43-201, `mixture.py` 45-102, `hmm.py` 67-100, `inference/objectives.py` 98-107, 177-185: objective and update of whole models |
| `Model/Create` | `beer/models/normal.py` 23-129, `normalset.py` 28-102, `categorical.py` 16-19, 42-54, `mixture.py` 17-38, `mixtureset.py` 29-51: creation of models (random numbers are an argument) |
| `Model/NormalFit` | `beer/models/normal.py` 131-144 with `inference/objectives.py` 92-107, 177-190 and `parameters.py` 134-141: a training step of a `Normal` |
| `Model/NormalDist` | `beer/dists/normaldiag.py` 68-192, `beer/dists/normal.py` 13-207, `dists/gamma.py` 122-124: calls on data, statistics, `log_norm`, sampling (the noise is an argument), natural parameters, `kl_div` |
| `Model/VAE` | `beer/models/vae.py` 15-86, `inference/objectives.py` 177-184: sampled objective with explicit broadcasting; networks are arbitrary functions of one frame |

## Plan per property

| id | what is modelled | how it is proved |
|----|------------------|------------------|
| C01 | `Graph` as counter + ordered state list + arc list; op language | invariant by induction over edit histories |
| C02 | `normalize` loops, `Except` for zero sums | per-state algebra, induction over states |
| C03 | `replace_state` | explicit characterisation of resulting arcs/states |
| C04 | `replace_state` with self-loop | negation with witness (KeyError), both general theorem and example |
| C05 | `compile` init/final | non-negativity invariant of the search, division by the sum |
| C06 | row normalisation loop | field algebra |
| C07 | `find_next_pdf_ids` work-list search vs. sum over ε-paths | negation with a diamond witness; partial: each non-emitting state entered by at most one explored arc |
| C08 | mkphones + mkphoneloopgraph + mkdecodegraph + compile | induction over units |
| C09 | mkaligraph | path characterisation |
| C10-C12 | forward/backward/posteriors in log domain | homomorphism to probabilities, induction over frames, path sums |
| C13, C14 | `best_path` with arbitrary argmax | invariant: omega = max over paths; backtracking attains it |
| C15 | `_inference` with path | negation (IndexError witness) + partial |
| C16, C17 | `state2phone` of decode | induction over segments; negation for single-state repeats |
| C18 | `state2phone` of posteriors | negation + exact value of the lost mass |
| C19, C20 | `_on_weights_update` | algebra on the matrix; negation for single-state units |
| C21 | phone-loop accumulate | algebra |
| C22 | bigram `_on_weights_update`, `accumulate` | negation (transposed) + partial for symmetric weights; counts and the update they give |
| C23-C25 | ELBO objects | commutative monoid laws, permutation/partition independence |
| C26, C27 | natural gradient | algebra, geometric convergence, limit |
| C28-C30 | optimizer state machine | induction over steps |
| C31 | conjugate updates for 4 families | convexity invariant, Cauchy-Schwarz |
| C32-C38 | natural parameter codecs | list/matrix algebra; negation for diagonal Normal |
| C39 | `kl_div` instances | convexity of log-Gamma refined through digamma; Jensen |
| C40 | `kl_div` decision logic | case analysis |
| C41 | expected log weights | digamma monotonicity lemma |
| C42, C43 | likelihood functions | algebra; negations for Gamma sign and isotropic index |
| C44 | mixture | Gibbs variational principle |
| C45 | MixtureSet slices | Python slice semantics; negations + partial |
| C46-C48 | model sets | adjointness of gather/scatter on lists |
| C49 | mean-field merging | list induction |
| C50-C52 | stick breaking | permutations, telescoping |
| C53, C54 | edit distance DPs | DP = recursive minimum = min over edit scripts |
| C55, C56 | boundary scoring | matching invariant; negation |
| C57 | dataset statistics | fold algebra |
| C58, C59 | deltas | finite sums; negation (half slope) |
| C60 | framing | integer arithmetic |
| C61 | mel/bark | real analysis |
| C62, C63 | logsumexp, onehot | algebra |
| C64 | reserve_gpu | state machine with oracle environment |
| C65 | make_symposdef | matrix algebra with orthonormal eigendecomposition as hypothesis |
| C66 | ARNet masks | dependency induction over layers |
| C67 | GSM slicing | list induction |
| C68 | batch schedule | integer arithmetic, negation |
| C69 | bigram accumulate error | negation |
| C70 | replace_parameters | tree induction, negation |
| C71 | accumulate/update | composition of C23, C25, C26, C33/C35 |
| C72 | groupby collapse | list induction |
| C73, C74 | `train`/`accumulate`/`update` commands | decision logic; negations |
| C75 | `find_next_pdf_ids` under different arc orders | negation with witness; partial for unique silent paths |
| C76 | Normal-Wishart update | matrix algebra: textbook posterior |
| C77 | `sufficient_statistics_dim` | lengths; negations |
| C78, C79 | joint and repeated model sets | negations with witnesses; induction |
| C80, C81 | stick-breaking expected log-weights, set prior | telescoping sums; negation after re-ordering |
| C82 | inverse auto-regressive flow | triangular Jacobian, induction over coordinates; change of variables by Fubini |
| C83 | mkphoneloopgraph + mkdecodegraph | language of the loop graph: simulation by unit sequences |
| C84 | mkphones | induction over groups and units; negations |
| C85 | Normal-Wishart KL | Cholesky contract, digamma tangents, determinant/trace inequality by eigenvalues |
| C91, C92, C94 | creation of models | round trip through `mean`/`cov`; validity feeds the training theorems |
| C93 | symmetry | invariant by induction over the training steps |
| C86, C90 | conjugate updates | Bregman identities in natural parameters, instantiated for four families |
| C87 | mixtures and sets of models | predicate `Lawful` closed under the containers; Jensen per frame; induction over iterations |
| C88, C89 | HMM training | Jensen over state sequences, posteriors as marginals (C11); negation for the reported value |
| C95, C96 | normal and Gamma distribution objects | identities with the density; decision logic on shapes; negations |
| C97 | sampling | linearity of the integral for any noise with the given moments |
| C98 | VAE objective | refinement to the sum over frames; negation for batches of two frames or more |
| C99 | expected statistics | refinement to integrals under Mathlib's laws |
| C100 | parametrisations of the subspace models | invariant for all real inputs; bijection via uniqueness of the Cholesky factor; error branches |
| C101, C103, C104 | layouts of the subspace models | refinement of reshapes to indices; concatenation |
| C102 | objective of the subspace model | refinement; integral over the noise; Jensen for mixtures |
| C105 | hierarchical objective | refinement to the bound; integral over the noise; negation for two languages |
| C106 | training of the latent priors | one epoch of the flat training; induction over the epochs of the hierarchical one (negation) |
| C107 | initial statistics of subspace units | algebra; exact characterisation of when frames are conserved (negation) |
| C108 | labels of subspace units | refinement of the loop to a closed form, by induction; witness for missing units |
| C109 | units of the subspace model | slices against blocks, by induction; composition with `mkphones`; witness for the hierarchical command |
| C110 | option `--posteriors` | negation for all files |
| C111 | token error rates | refinement of the two scripts to the edit distance of C53; equality of the scripts; negation for missing utterances |
| C112 | mapping of largest overlap | counting by induction; optimality over all mappings |
| C113 | mapping of transcriptions | refinement; composition of three scripts through their files |
| C114 | normalised mutual information | limit of the smoothed value = textbook value; Gibbs' inequality for bounds and equality cases |
| C115 | entropy, perplexity | refinement to textbook entropy; bounds with equality cases |
| C116 | confusion tables and mutual information | refinement (counts), continuity in the smoothing constant, negations |
| C117 | central frames | refinement to the runs of the alignment, exact condition, negation |
| C118 | feature statistics | refinement, invariance, error branches, negation |
| C119 | transcriptions, frame labels | refinement |
| C120 | units of an alignment | round trip for all durations, negation |
| C121 | probabilistic layers | law of the samples against density, negation |
| C122 | networks from configurations | round trip, error branches, negation |
| C123 | forward passes | refinement, bound, negation |
| C124 | elements of distributions | invariant over operations on a heap, negation |
| C125 | elements of parameters, observers | invariant over operations, exactly-once |
| C126 | elements of subspace parameters | get/set laws, negation |
| C127 | models made by new_models | refinement, negation |
| C128 | short term spectrum | algebraic, decision logic |
| C129 | filter bank | refinement to triangles, pigeonhole, negation |
| C130 | cepstrum | algebraic, round trip |
| C131 | features of a signal | algebraic, decision logic |
| C132 | extraction to data set | round trip, negations |
| C133 | iteration over a data set | induction, refinement |
| C134 | initial phone loop | algebraic (digamma), bounds, decision logic |
| C135 | bigram phone loop | refinement, induction over updates, negations |
| C136 | prior taken from another subspace model | refinement, laws of the draws, negation |
| C137 | initialisation of a language | decision logic, frame, negations |
| C138 | languages and their posteriors | invariants over the commands, negation |
| C139 | options of the training of subspace models | refinement, invariants over epochs, negations |
| C140 | frame labels of TIMIT alignments | refinement of a specification by segments, negation |
| C141 | TIMIT phone sets | refinement of the map as a function, agreement of two scripts, negation |
| C142 | stacked features | refinement, round trip |
| C143 | numbers of phones, states and speakers | round trip, negations |
| C144 | decoding graphs as text | refinement of a language, normalised weights, negation |
| C145 | phone transcriptions from a lexicon | invariants over the lexicon, refinement, negations |
| C146 | phone transcriptions from letters | refinement of a specification, invariants, negation |
| C147 | prefixes and names of units | injectivity, counting, negation |
| C148 | caches do not leak between evaluations | invariant over sequences of calls, negation |
| C149 | mixtures over a set of subspace models | refinement of a formula, decision logic of the groups, negation |
| C150 | mixtures trained with labels | invariant over training runs, refinement, negation |
| C151 | compiling a graph keeps its paths | refinement to a path semantics, negation |
| C152 | alignment and decoding graphs allow exactly their transcriptions | refinement, induction over the replacements |
| C153 | decoding follows the graph whatever the features | refinement, composition of C14, C16, C84 and C152, negation |
| C154 | the decode command prints one line per utterance | induction over the utterances, decision logic, negations |
| C155 | the posteriors command saves the posteriors of the scaled model | refinement to sums over state sequences, induction over the utterances, negations |
| C156 | training the weights of a phone loop keeps the possible sequences | invariant by induction over the updates, negation |
| C157 | variational training of a phone loop never decreases the evidence lower bound | invariant by induction over the steps, refinement to sums over state sequences, negation |
| C158 | training stick-breaking weights never decreases the evidence lower bound | invariant by induction over the steps, optimality, negation |
| C159 | training stick-breaking weights with a hyper-prior reports an evidence lower bound which never decreases | invariant by induction over the steps, refinement to the joint bound, negation |
| C160 | training a bigram phone loop never decreases the objective | invariant by induction over the steps, error branches, negation |
| C161 | training a phone loop with stick-breaking weights never decreases the objective | invariant by induction over the steps, error branches, negation |
| C162 | boundary scores are those of a one-to-one matching and do not depend on unit names | refinement to spec, error branches, negation |
| C163 | fbank computes the log filter bank features of every frame | refinement to spec, error branches, negation |
| C164 | a Gamma model has the requested mean and can be trained | round-trip, error branches, negation |
| C165 | jacobians returns the Jacobian matrices, approximate_hessian their product | refinement to spec, negation |
| C166 | the objectives of training bound the log-evidence (an integral over the priors); trainings converge | refinement to spec (Mathlib measures), invariant along infinite trainings |
| C167 | a change of units of the features changes nothing but a constant in the scores | algebraic (equivariance), invariant along trainings |
| C168 | numbering the components, pdfs or states in another order changes nothing else | algebraic (equivariance), invariant along trainings |
| C169 | a trained Normal model pools its prior and the data, and forgets the prior as the data grow | refinement to spec (sample moments), limits |
| C170 | per-frame offsets change no posterior; best path and log-evidence; larger graphs; single paths | refinement to spec (sums over paths), inequalities |
| C171 | a training step of a mixture or HMM re-estimates every Normal from its share of the data; nothing is lost | refinement to spec (weighted sample moments) |
| C172 | the objective of a mixture or HMM strictly increases or nothing changes ever again; boundary: one component | decision logic, invariants over steps |
| C173 | posteriors at scale 0 are the graph's, their limit at large scales, monotone value, decoding trades the graph for the frames; negations: flat at 0, sharp at infinity | decision logic, limits |
| C174 | `score_boundaries2.py` as a whole: ratios, equal boundaries, errors; negations: precision above one, no hits, insertions, mapping | decision logic |
| C175 | `hmm-create-graph-and-emissions.py`: the units of distinct phones, errors, comparison with `mkphones.py`; negations: repeated names, extra phones, arcs to missing states | refinement / decision logic |
| C176 | derivative of the log-evidence along a curve is the posterior-weighted derivative; tangent inequality for convexity; Viterbi by local constancy of the best path | refinement / algebraic |
| C177 | best or given sequence as an upper/lower bound of the log-joint, then the step of the conjugate family; concrete two-state graph for the decrease of the reported value | invariant / refinement / negation |
| C178 | coordinates of the natural parameters as a relaxation towards the exact posteriors of the batches; contraction and telescoping sum for the cycle | algebraic / invariant |
| C179 | the weight of every sequence changes by a bounded factor, hence sums and ratios of sums; two-state witness for the gap | algebraic / negation |
| C180 | potential of a path along the topology; forward probabilities by induction (Pascal's rule), negative binomial series; compiled row | refinement / algebraic |
| C181 | bounds of the digamma function around the logarithm; squeeze for the limit | algebraic |
| C182 | weights by rank, ratios of successive ranks; telescoping of what is left over; recurrence of the digamma function | algebraic |
| C183 | statistics, update and callback of the bigram weights composed | negations for the order and for the mass; partial for symmetric counts; stick-breaking sets by the decreasing increments of the digamma function |

## Not modelled

GPU placement and dtypes, autograd (`requires_grad`, `detach`, `backward()` of torch values), the code of torch's Adam and SGD (modelled as documented), the random generator (`randn`; drawn numbers are arguments), pickling, logging, argument parsing, file formats (`yaml.load(f)` without
`Loader`, which recent versions of PyYAML refuse, is not modelled), audio reading, FFT algorithms (the transform is modelled as a sum),
notebooks, plotting, shell recipes; dead modules that cannot be imported (`models/lm.py`,
`models/lds.py`, `models/linearreg.py`, `models/marginalpldaset.py`, `models/vae-old.py`), the module `vbi.py`, which nothing imports (its `natural_backward` calls a
method that does not exist);
of the subspace models, the gradients; the networks and `accumulate` of `models/vae.py`; the code of `torch.nn`.

## Findings: where the code and the property disagree

Each is proved as a theorem on the model (negation with a witness) unless marked *(read)*.

* `graph.py` `replace_state`: a state with a self-loop raises `KeyError` (C04).
* `graph.py` `compile`: zero-weight arcs give NaN vectors (C05); `find_next_pdf_ids` multiplies the
  wrong weights and forgets all but one path between non-emitting states (C07), so the result depends
  on the iteration order of a set (C75).
* `hmm.py`: with a given path, `pc_llhs[path]` indexes frames by state numbers: `IndexError` (C15).
* `decode.py`: a repeated single-state phone is merged (C17). `posteriors.py`: the mass of the last
  state of each phone is dropped (C18).
* `phoneloop.py`: the refresh overwrites the self-loop of single-state phones (C20); the bigram weights
  are installed transposed (C22), so that training makes the rarer of two directions the likelier one and the transitions
  leaving a state may sum to more than one (C183); with forced alignments a bigram loop always raises (C69).
* `models/gamma.py` `accumulate` negates already negated statistics, so the posterior rate is
  `rate0 - sum x`, possibly negative (C31). *(read)* `expected_log_likelihood` of that model raises.
* `gamma.py` likelihood: the sign of `rate * x` is wrong (C42). `normaldiag.py`: `from_natural_parameters`
  never inverts `natural_parameters` (C38); the fixed-covariance likelihood drops the `x²` term (C42).
* `isonormalgamma.py`: the log-precision is read from the last mean coordinate (C43); the batch version
  of `parameters_from_pdfvector` raises `NameError`.
* `normalwishart.py`, `normaldiag.py`: `sufficient_statistics_dim` is wrong (C77).
* `basedist.py` `entropy` always raises `NameError` (model of `entropy`).
* `mixtureset.py` `__getitem__`: key `-1`, open slices and steps select wrong components, an empty selection raises `ZeroDivisionError` on every access (C45).
* `modelset.py`: shared parameters are overwritten by the last member (C78); iterating over a
  `RepeatedModelSet` never stops (C79).
* `basemodel.py` `replace_parameters` does not enter `ModuleList`s and misses second names (C70).
* `categoricalset.py`: the prior of a set uses the cumulative sums in category order although the
  sticks are broken in the order of the root (C81).
* `problayers.py`: flows with `flow_params_dim = 0` raise `TypeError`; with `use_mean` the log-likelihood of a flow
  misses the constant `-D/2 log(2 pi)` (C82).
* `utils.py` `make_symposdef`: not positive definite when the largest eigenvalue is not positive (C65).
* `features.py`: the delta of a ramp is half its slope (C59).
* `train.py`: batch size -1 (C68). `update.py`: the learning rate option is ignored when a state file
  exists (C73). `accumulate.py`: a missing first utterance crashes (C74).
* `mkphones.py`: a configured group without unit makes the command fail (C84); duplicate unit names
  shift the numbering (C08).
* `hmm.py` `expected_log_likelihood` returns the expected emission scores: the entropy of the state
  sequences and the transition scores are missing, so `evidence_lower_bound` of an HMM is not a lower
  bound (C89); the true objective is nevertheless monotone (C88).
* `score_boundaries2.py`: more hits than hypotheses, `IndexError`, erased references (C56).
* `models/normal.py` 94 and `normalset.py` 92 test `cov_type not in cov_type`, which is never true, so an
  unknown type raises `KeyError` and never `UnknownCovarianceType`; the documented scalar covariance (a
  tensor without dimension) raises `RuntimeError` (C91).
* A mixture created with `noise_std=0` can never separate its components, whatever the training (C93).
* `dists/normaldiag.py` `forward` without `pdfwise`: the log-normalisers of a batch are subtracted along
  the axis of the data, so the call raises or returns wrong values (C95). `dists/normal.py` `forward` of a
  single distribution raises `IndexError` (C95).
* `dists/normal.py` `from_natural_parameters` inverts a non-square matrix and raises in two dimensions or
  more (C96). `dists/normaldiag.py` `expected_sufficient_statistics` concatenates batches along the wrong
  axis, so `kl_div` of batches raises (C96).
* `models/vae.py` 86: shapes `(N, 1)` and `(N,)` broadcast to `(N, N)`, so `evidence_lower_bound` counts
  the local part `N` times against the divergence of the global parameters (C98).
* `hmm.py` 87: a given state path with one state is silently broadcast over all frames; any other wrong
  length raises (C15).
* `gsm.py` `HierarchicalGSM`: the divergence of the prior shared by the languages is subtracted once per
  language (C105). `hshmm/train.py` 111: the conjugate optimizer holds the prior over units, for which the
  objective has no statistics, so its posterior goes to its prior; the prior over languages, which has
  statistics, is in no optimizer (C106).
* `shmm/mksphoneloop.py` 30-48: three states are hard-coded and the weights are not normalised over the
  states, so the number of frames of a unit changes, differently for its weights and its Gaussians (C107).
* `shmm/mksphoneloop.py` 128-131: a unit missing from the class file shifts the labels of the units after it
  (C108). Lines 160-162: the file given with `--posteriors` is emptied and the command fails (C110).
* `hshmm/mksphoneloop.py` 86, 108-111: `--unit-group` does not choose the emissions (C109).
* `ter.py` 127-133: reference utterances without hypothesis are left out, so leaving out utterances lowers
  the rate (C111).
* `compare-alignments.py` 55-62: an utterance without hypothesis is reported by a warning but its frames are
  compared with the hypothesis of the previous utterance (`C116_missing_reused`, `C116_missing_counted`).
* `compare-alignments.py` 70-86: symbols outside `--groups` are removed from the reference but not from the
  hypothesis counts; the mutual information printed can be negative (`C116_omitted_symbol_negative`).
* `features-extract-central-frame.py` 22: the next token starts one frame late, so a token of one frame between
  two others is represented by a frame of the token after it (C117).
* `features-stats.py` 23-24: an utterance with one column is broadcast over all coordinates (C118).
* `pdf2unit.py`, `convert_states_to_phone.py`: repeated units with one state are merged (C120).
* C100: `_MeanLogDiagLL` given a single off-diagonal number fills every place below the diagonal with it.
* C121: `BernoulliLayer.log_likelihood` is not a log-probability (sum `(1+2e-6)^D`, positive values).
* C122: `parse_nnet_element` refuses its own documented example; it wants `;` between the arguments.
* C123: `MergeTransform` silently drops all its transforms but the first inside a network, and overwrites the
  caller's input when its first transform returns it unchanged.
* C124: elements of distributions are called views but become stale when the set is updated, since
  `update_from_natural_parameters` rebinds `params`; `__getitem__` never raises `IndexError`, so that `for x in dist` never ends.
* C125: `BayesianParameter.__eq__` compares the class of `other` with itself, and only hashes.
* C126: `SubspaceBayesianParameterView.natural_form` returns `None`; `view[key]` forgets the key of the view;
  `zero_stats` with a list of positions clears a copy.
* C127: `GSM.new_models` deep-copies identifiers, so that the statistics of the models overwrite each other in one
  set; it also sets an attribute `pdfvecs` that nothing reads *(read)*.
* C129: `features/extract.py` 120-122 (and `features.fbank` 201, C163) calls `create_fbank` without the sampling rate: the filters are those of a 16 kHz
  signal, and at 8 kHz no filter reads the upper half of the spectrum; when two centres coincide (too many filters) the filters are NaN
  rather than refused; `np.float` (`features.py` 34) does not exist in recent versions of numpy *(read)*.
* *(proved)* Identifiers of utterances with `.npy` in them or a dot in front: `features archive` and `Dataset` overwrite, rename or
  leave out their features (C132).
* *(proved)* `hmm mkphoneloop -c 0` is ignored (`if args.concentration:`), and with the default concentration
  between e^-2 and a third of the stick-breaking weight belongs to no unit (C134).
* *(proved)* `hmm mkphoneloopbigram` without `--weights-prior` raises `KeyError`: the default is not in the table; with
  `dirichlet2` the trained unigram is forgotten (C135).
* *(proved)* `shmm setprior --var v` sets the variance to `v + 1e-4` and draws new latent means without the correlations
  of the latent prior (C136).
* *(proved)* `hshmm init --init-from` saves a language model with a stale root; with two or more units in the group of the
  file it writes to that group although training uses the largest one; a phone-loop with one group of one unit raises
  `IndexError` (C137).
* *(proved)* `hshmm train` pairs language models and latent posteriors by their position in two dictionaries (C138).
* *(proved)* `hshmm train` freezes blocks by clearing their gradients after `backward`; with a torch that sets gradients to
  zero, Adam still moves a frozen block whose momentum was loaded from a saved state (C139).
* *(proved)* with `--optim-state` the learning rates of the command line are ignored; `VBOptimizer.load_state` raises
  `NameError` (C139).
* *(proved)* `phone_ali.py` adds up the lengths of the segments and ignores where they begin: the labels of files that begin
  late or have gaps come too early (C140).
* *(proved)* the second pass of `timit-norm-trans.py` also drops classes that have the name of a removed phone (C141).
* *(proved)* with phones numbered from 1, as other scripts do, `prepare_state_labels.py` gives the last phone no states; `prepare-spk-labels.py` numbers
  speakers in the order of a set, which changes from run to run (C143).
* *(proved)* for a phone listed twice with two weights, `prepare-decode-graph.py` gives a graph that depends on the order of
  a set (C144).
* *(proved)* `alffa/prepare_transcripts.py` goes over the characters of the id of the unknown word: utterances with
  unknown words are left out, or written as other phones (C145).
* *(proved)* `google_lr/prepare_transcripts.py --add-sil` writes two silences in a row after a sentence that ends with a
  word in brackets (C146); `add_prefix.py` can make different tokens the same (C147).
* *(proved)* `trans_resps` of an utterance evaluated outside of `evidence_lower_bound` (or inside, if it raises) is counted
  by the `accumulate` of the next utterance with an alignment graph (C148).
* *(proved)* `GSMSet` on a mini-batch: the statistics of the class means are scaled by data size / batch size although all
  the class means were seen (C149). *(read)* `GSMSet.expected_pdfvecs` and `new_models` ignore the class means;
  `GSMSet.__getitem__` returns `None`.
* *(proved)* the objective of a mixture with labels leaves out the expected log-weights and can decrease (C150).
* *(proved)* `compile` keeps the diagonal of the transition matrix and rescales the rest: when a silent state entered from
  an emitting state has several ways out, the diagonal can be one and a transition of the graph gets probability zero (C151).
* *(proved)* `hmm/decode.py` line 70 prints `utt` instead of `uttname`: when the first requested utterance is missing the
  warning raises `NameError` (later on it names the previous utterance) (C154). Blank lines raise `IndexError`.
* *(proved)* an utterance too short for its transcription is aligned to something else without any error or warning (C153).
* *(proved)* a unit is recognised in a path by its first emitting state, so a topology which leads back to this state is printed once
  more each time it does (`decode.py` 33-39, `C153_reentered`). No topology of the recipes does; the non-speech one goes back, but not to
  its first state (`C153_topologies`).
* *(proved)* `HMM.posteriors` multiplies the statistics by the acoustic scale where `decode` multiplies the log-likelihoods: for
  mixtures the posteriors are not those of the scaled model (C155). `hmm/posteriors.py --log` adds `1e-5` to the
  probabilities: the numbers saved can be positive (C155).
* *(proved)* A phone loop over a single unit with a single pdf which is the start/end group loses all its transitions when it is
  made: `1 - loop_prob` is zero (`phoneloop.py` 62-65, C156).
* *(proved)* `PhoneLoop.accumulate` adds the posteriors of the first frame to the counts of the weights (`phoneloop.py` 94) but the
  initial probabilities of the graph do not depend on the weights: a step can decrease the evidence lower bound (C157). Its comment
  says that the transitions are not trained with alignments (86-87); the zero statistics put the weights back to their prior (C157).
* *(proved)* `SBCategorical._transform_stats` (`categorical.py` 109-118) re-orders the categories at each update but the posteriors of
  the sticks stay with their categories: with a learning rate below one a step can decrease the evidence lower bound (C158).
* *(proved)* `SBCategoricalHyperPrior` inherits `mean_field_factorization` (`categorical.py` 155-156), which does not list the
  concentration: its divergence is missing in `evidence_lower_bound`, the prior of the sticks is taken at the mean concentration,
  and the number returned exceeds the joint bound and can decrease when the joint bound does not (C159).
* *(proved)* `BigramPhoneLoop._on_weights_update` (`beer/models/phoneloop.py` 145-157) with a `CategoricalSet`: `log_weights[i]` is the
  column of unit `i`, not its row, so the probability of `j` after `i` is taken from the weights after `j`; training can decrease the
  objective (C160).
* *(proved)* `BigramPhoneLoop.accumulate` (`beer/models/phoneloop.py` 187-190) raises for utterances with alignments: `TypeError` with a
  `CategoricalSet` (`accumulate` needs the responsibilities), `NotImplementedError` with a `SBCategoricalSet` (C160).
* *(proved)* `PhoneLoop.accumulate` (`beer/models/phoneloop.py` 94) counts the first unit of an utterance, but the initial
  probabilities of the graph do not depend on the weights: training can decrease the objective; with alignments (lines 98-100) zero counts
  put the sticks back to the prior after a full step (C161).
* *(proved)* `map_trans` of `recipes/aud/utils/score_boundaries.py` 56-68 numbers the unknown units from 1 in each call, but stores the
  names in the mapping shared by the two calls of `main` (lines 85-88): a new unit of the reference can get the name of a unit of the
  hypothesis that also occurs in the reference, and the boundary between them is lost (C162).
* *(proved)* `fbank` of `beer/features.py` does not give its sampling rate to `create_fbank` (line 201): the filters are those of a
  16 kHz signal whatever `srate` (C163).
* *(proved)* `Gamma.expected_log_likelihood` of `beer/models/gamma.py` 68-80 takes the number of all the natural parameters for the
  dimension and does not use `final_nparams`: it always raises a `RuntimeError`; `accumulate`, 82-88, has the wrong sign (C164, C31).
* *(proved)* `jacobians` of `beer/utils.py` 197-206 clears the gradients before the first output only: each row also contains the gradients
  of all the earlier outputs; an input on which the first output does not depend raises an `AttributeError` (C165).
* *(proved, C173)* The comment of `recipes/aud/utils/posteriors.py` (lines 4-11) says that an acoustic scale of 0 gives flat
  posteriors (1/K) and a large one sharp posteriors. A left-to-right graph has 0 and 1 at scale 0; two states with the same
  log-likelihoods have 1/2 at every scale.
* *(read)* `recipes/aud/utils/posteriors.py` cannot run: `main` takes an argument (line 29) and is called without (line 59). With
  that mended, `model.graph.value` (line 23; a compiled graph has no `value`) and `.detach()` on the pair that `_inference`
  returns (line 47) would fail next.
* *(proved, C174)* `score_boundaries2.py`: a boundary of the hypothesis near two of the reference counts twice (precision 200%);
  without any hit the script ends with `ZeroDivisionError`; boundaries inserted by the hypothesis raise `IndexError` or lower the recall
  of boundaries that were found; an utterance decoded as a single unit raises `ValueError`; units missing from the mapping are removed
  with their frames, which moves the boundaries after them.
* *(proved, C175)* `hmm-create-graph-and-emissions.py`: the shipped `conf/hmm/hmm.yml` and `conf/vae_hmm/hmm.yml` have no
  `emission_type` (`KeyError`), `conf/aud_hmm_lds/hmm.yml` needs `beer.LDSSet`, which is not exported (`AttributeError`); phones beyond
  the number of units get no unit; two phones of the same name leave densities without a unit; `n_state_per_unit` smaller than the
  states of the topology gives arcs to states that do not exist.
* *(proved, C177)* `hmm.py` line 58 indexes the rows of the log-likelihoods (frames) with the state numbers of the path. The value is
  not used, but an utterance with fewer frames than the number of a visited state raises `IndexError` with `viterbi=True` or `state_path`.
* *(proved, C177)* With `viterbi=True` the value reported during training leaves out the log-probability of the best path in the graph:
  it can decrease from one step to the next (`C177_viterbi_decrease`) although the objective does not (`C177_training`).
* *(proved, C180)* `graph.py` line 210 normalises the final probabilities to one, so the compiled graph of a unit alone does not give a
  distribution over the durations: the weights add up to `1 / (1 - a)` for states kept with probability `a` (`C180_compiled`).
* *(proved, C177)* Viterbi training accepts an utterance the graph does not allow, whose posteriors would be NaN, and gives its frames to
  a sequence of states of probability zero.
* *(read)* `gsm.py` `_rvecs_from_samples` passes the number of samples by position, so the root of a hierarchical
  transform is always sampled five times, whatever `--params-nsamples`.
* *(read)* `parameters.py` `__eq__` compares `other.__class__` with itself;
  `gsm.py` `SubspaceBayesianParameterView.natural_form` returns `None`; `mixture.py` `posteriors` reads
  the missing attribute `weights`; `gamma.py` `__len__` reads the missing `params.mean`;
  `mkphoneloopbigram.py` has a default
  option value which is not among the choices.

## Mutation testing

`seeded/LOG.jsonl` records the wrong programs tried: for each, the definition of the model that was
edited in a scratch copy, the edit, the claim it breaks, the declarations that stopped compiling, and
the theorems tightened as a consequence. Edits that *repair* a bug of the code are included: then the
theorem proving the violation has to fail. When the edit already breaks a helper lemma, the theorems
depending on it are not rebuilt; the log then names the lemma and the theorems resting on it.
