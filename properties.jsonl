{"id": "C01", "title": "Graph states get fresh identifiers and arcs stay unique per state pair", "statement": "Whatever sequence of add_state / add_arc / replace_state / normalize calls built a graph, no two states ever share an identifier, an identifier once handed out is never handed out again (even after the state was replaced), and there is at most one arc per ordered pair of states; re-adding an existing pair leaves the weight first given to that pair untouched.", "quantifier": "all finite sequences of graph editing operations, all weights, all pdf ids", "why_tests_cant": "The claim is about every history of edits; tests only build a handful of fixed graphs.", "anchors": ["beer/graph.py:Graph.add_state", "beer/graph.py:Graph.add_arc", "beer/graph.py:Graph.replace_state", "beer/graph.py:Arc"]}
{"id": "C02", "title": "Normalising a graph makes every state's outgoing weights a distribution", "statement": "After normalize(), for every state of the graph that has outgoing arcs, the outgoing weights sum to one, the ratio between the weights leaving the same state is unchanged, and no arc, state or pdf id is added, removed or rewired; normalising twice is the same as normalising once. A state whose outgoing weights sum to zero makes the call fail with a division error.", "quantifier": "all graphs and all weights", "why_tests_cant": "Universal over graphs and weights; needs an argument about the interplay of the per-state loops.", "anchors": ["beer/graph.py:Graph.normalize"]}
{"id": "C03", "title": "Substituting a state by a sub-graph preserves the surrounding graph", "statement": "If state s has no self-loop, replace_state(s, g) succeeds and the resulting arcs are exactly: the arcs of the old graph not touching s, a fresh copy of the arcs of g with the same weights, every old arc x->s redirected to the copy of g's start state and every old arc s->y now leaving the copy of g's end state, with the original weights; the states are the old ones minus s plus one fresh copy per state of g with the same pdf id in the same order.", "quantifier": "all graphs, all sub-graphs, all states to replace", "why_tests_cant": "Ranges over all graph pairs; index-renaming bugs only show on specific topologies.", "anchors": ["beer/graph.py:Graph.replace_state"]}
{"id": "C04", "title": "Replacing a state that has a self-loop", "statement": "replace_state works for every state of the graph, including states that have an arc to themselves.", "quantifier": "all graphs and all states", "why_tests_cant": "A universal claim about topologies; the existing tests never build the offending one.", "anchors": ["beer/graph.py:Graph.replace_state"]}
{"id": "C05", "title": "Initial and final probabilities of a compiled graph are distributions", "statement": "For every graph with non-negative weights from which at least one emitting state is reached from the start state (resp. reaches the end state) with positive weight, the compiled initial (resp. final) probabilities are non-negative and sum to one.", "quantifier": "all graphs with non-negative weights", "why_tests_cant": "Universal over graphs, including arbitrary cycles of non-emitting states.", "anchors": ["beer/graph.py:Graph.compile", "beer/graph.py:Graph.find_next_pdf_ids", "beer/graph.py:Graph.find_previous_pdf_ids"]}
{"id": "C06", "title": "Row normalisation of the compiled transition matrix", "statement": "For every state having a self-loop probability d with 0 < d < 1 and at least one outgoing transition of positive weight to another state, the compiled row keeps the self-loop probability d exactly, is non-negative, sums to one, and keeps the ratios between the other transitions; every row without self-loop or without other transitions is left unchanged. (For a self-loop weight of one the other transitions are erased, for a larger one they become negative.)", "quantifier": "all raw transition matrices with non-negative weights", "why_tests_cant": "Universal over matrices, boundary cases (no self-loop, no exit, d = 1).", "anchors": ["beer/graph.py:Graph.compile"]}
{"id": "C07", "title": "Non-emitting states are compiled away without losing probability mass", "statement": "The compiled transition weight between two emitting states equals the sum, over all paths of the graph that go from one to the other through non-emitting states only, of the product of the arc weights.", "quantifier": "all graphs without cycles of non-emitting states, all pairs of emitting states", "why_tests_cant": "Number of paths is unbounded; a path-counting mistake needs a diamond of non-emitting states, which tests do not contain.", "anchors": ["beer/graph.py:Graph.find_next_pdf_ids", "beer/graph.py:Graph.compile"]}
{"id": "C08", "title": "Decoding-graph pipeline numbers states like pdfs", "statement": "For every list of unit groups (any topology with consecutive state ids, any number of states per unit, any number of units with distinct names), creating the units, building the phone-loop graph, substituting the units and compiling yields a compiled graph whose i-th state emits pdf i. Hence the start/end pdf ids of the phones handed to the phone-loop model can be used as state indices, as the phone-loop model does.", "quantifier": "all unit inventories and topologies", "why_tests_cant": "The invariant spans four commands and all configurations; a violation silently trains wrong transitions rather than crashing.", "anchors": ["beer/cli/subcommands/hmm/mkphones.py:create_unit_graph", "beer/cli/subcommands/hmm/mkdecodegraph.py", "beer/cli/subcommands/hmm/mkphoneloopgraph.py", "beer/graph.py:Graph.compile", "beer/models/phoneloop.py:PhoneLoop"]}
{"id": "C09", "title": "Alignment graphs accept exactly the transcription", "statement": "Every path of the alignment graph made from a transcription goes through the units of the transcription, all of them, exactly once each and in order (repeated units included).", "quantifier": "all transcriptions and unit inventories", "why_tests_cant": "Universal over sequences and over paths.", "anchors": ["beer/cli/subcommands/hmm/mkaligraph.py:create_graph_from_seq", "beer/graph.py:Graph.replace_state"]}
{"id": "C10", "title": "The forward recursion sums over all state sequences", "statement": "For every initial, transition and frame log-likelihood table (with -inf allowed), the forward variable of state s at frame t equals the log of the sum over all state sequences of length t+1 ending in s of the product of initial, transition and emission probabilities.", "quantifier": "all models, all numbers of states, all utterance lengths", "why_tests_cant": "Exponentially many sequences; induction over the length is required.", "anchors": ["beer/graph.py:CompiledGraph._baum_welch_forward"]}
{"id": "C11", "title": "State posteriors are the exact marginals of the path distribution", "statement": "When the utterance has non-zero probability under the graph, the posterior returned for frame t and state s is the probability that a path drawn from the path distribution is in s at time t: posteriors are between 0 and 1 and sum to one at every frame, and the reported log-evidence is the log of the total path weight, identical at every frame.", "quantifier": "all models, all utterance lengths, all frames", "why_tests_cant": "Needs the forward/backward factorisation for arbitrary length; tests compare to a re-implementation of the same recursion on random data.", "anchors": ["beer/graph.py:CompiledGraph.posteriors", "beer/graph.py:CompiledGraph._baum_welch_backward"]}
{"id": "C12", "title": "Transition posteriors are consistent with state posteriors", "statement": "When the utterance has non-zero probability, the transition posteriors of a frame sum to one; summing over the destination gives the state posterior of that frame and summing over the origin gives the state posterior of the next frame.", "quantifier": "all models, all utterance lengths, all frames", "why_tests_cant": "Universal statement relating two outputs of the API; no test checks it.", "anchors": ["beer/graph.py:CompiledGraph.posteriors"]}
{"id": "C13", "title": "Decoding returns a most likely state sequence", "statement": "The state sequence returned by the Viterbi search has one state per frame and its score (initial + transitions + emissions + final) is at least the score of every other state sequence of the same length, whatever way ties in argmax are broken and with -inf scores allowed.", "quantifier": "all models, all utterance lengths, all tie-breaking choices, all competing paths", "why_tests_cant": "Optimality against exponentially many alternatives.", "anchors": ["beer/graph.py:CompiledGraph.best_path", "beer/models/hmm.py:HMM.decode"]}
{"id": "C14", "title": "Decoded sequences only use allowed transitions", "statement": "If some state sequence has finite score, then the decoded sequence starts in a state with non-zero initial probability, only uses transitions with non-zero probability and ends in a state with non-zero final probability.", "quantifier": "all models, all utterances", "why_tests_cant": "Feasibility must hold for every input, including ones where most partial hypotheses are -inf and backtracking pointers are arbitrary.", "anchors": ["beer/graph.py:CompiledGraph.best_path"]}
{"id": "C15", "title": "Training with a given state path works for every path", "statement": "Evaluating the HMM with an explicit state path (or with the Viterbi path) succeeds for every path made of valid state indices and yields as responsibilities the indicator of that path.", "quantifier": "all numbers of states, all utterance lengths, all valid paths", "why_tests_cant": "Depends on the relation between number of states and frames.", "anchors": ["beer/models/hmm.py:HMM._inference"]}
{"id": "C16", "title": "Decoded state paths convert back to the phone sequence", "statement": "If a state path is the concatenation of runs through left-to-right phone HMMs (entering each phone by its start state, never re-entering the start state inside the phone), the decoder's conversion to phones returns exactly the sequence of phones; in per-frame mode it returns one phone label per frame, equal to the phone occupying that frame.", "quantifier": "all phone sequences, durations and phone inventories in which every repeated phone occupies at least two different states", "why_tests_cant": "Universal over sequences and durations.", "anchors": ["beer/cli/subcommands/hmm/decode.py:state2phone"]}
{"id": "C17", "title": "Single-state phones can be decoded when repeated", "statement": "The decoder's conversion of states to phones recovers the phone sequence also when a phone with a single state is repeated.", "quantifier": "all phone sequences", "why_tests_cant": "Needs an adversarial path.", "anchors": ["beer/cli/subcommands/hmm/decode.py:state2phone"]}
{"id": "C18", "title": "Phone posteriors collect all the state posterior mass", "statement": "Converting per-state posteriors to per-phone posteriors gives, for each phone, the sum of the posteriors of all its states, hence the phone posteriors of every frame sum to one.", "quantifier": "all posterior matrices and phone inventories", "why_tests_cant": "Universal over inventories; no test on this command.", "anchors": ["beer/cli/subcommands/hmm/posteriors.py:state2phone"]}
{"id": "C19", "title": "Phone-loop transition update is idempotent and keeps rows sub-stochastic", "statement": "If no phone's last state is a phone start state, refreshing the phone-loop transitions after a weight update leaves every self-loop probability unchanged, replaces the transitions from each phone end to each phone start by (1 - self-loop) times the phone weight, does not depend on how many times it was refreshed nor on earlier weights, and the outgoing probability from a phone end to all phones never exceeds one minus its self-loop.", "quantifier": "all compiled graphs, all phone inventories, all histories of weight updates", "why_tests_cant": "Property of the whole training history; drift would appear only after many updates.", "anchors": ["beer/models/phoneloop.py:PhoneLoop._on_weights_update"]}
{"id": "C20", "title": "Phone-loop refresh with single-state phones", "statement": "The self-loop probability of a phone's last state is unaffected by refreshing the phone-loop transitions, also when the phone has a single state.", "quantifier": "all phone inventories", "why_tests_cant": "Requires a configuration not covered by tests and shows as a silent drift.", "anchors": ["beer/models/phoneloop.py:PhoneLoop._on_weights_update"]}
{"id": "C21", "title": "Phone counts collected by the phone loop", "statement": "The statistics accumulated for the phone weights count, for each phone, the expected number of times the path enters it: the probability of starting in it plus the expected number of end-of-phone to start-of-phone transitions; they are non-negative, and with forced alignments they are zero.", "quantifier": "all posteriors and phone inventories", "why_tests_cant": "Universal algebraic claim.", "anchors": ["beer/models/phoneloop.py:PhoneLoop.accumulate"]}
{"id": "C22", "title": "Bigram phone loop uses P(next | previous)", "statement": "In a bigram phone loop the transition installed from the end of phone i to the start of phone j uses the expected log-weight of category j in the distribution of contexts i, the same orientation as the one used to accumulate bigram counts.", "quantifier": "all bigram weight matrices", "why_tests_cant": "Symmetric test matrices (uniform initialisation) hide a transposition.", "anchors": ["beer/models/phoneloop.py:BigramPhoneLoop._on_weights_update", "beer/models/categoricalset.py:CategoricalSet.expected_log_likelihood"]}
{"id": "C23", "title": "Accumulated objectives do not depend on order or partition", "statement": "Summing the per-utterance objectives of the same data-set size gives the same value, statistics, parameter set and number of frames for every order of the utterances and every split of them over parallel jobs (each job starting from the empty objective).", "quantifier": "all lists of utterance objectives, all permutations, all partitions into jobs, including empty jobs", "why_tests_cant": "Combinatorially many schedules.", "anchors": ["beer/inference/objectives.py:add_acc_stats", "beer/inference/objectives.py:EvidenceLowerBoundInstance.__add__", "beer/inference/objectives.py:evidence_lower_bound"]}
{"id": "C24", "title": "Objectives of different data sets cannot be mixed", "statement": "Adding two objectives fails with an error if and only if they were evaluated for different total data sizes (or the operand is not an objective); adding never changes the data size.", "quantifier": "all pairs of objectives", "why_tests_cant": "Universal statement on both branches.", "anchors": ["beer/inference/objectives.py:EvidenceLowerBoundInstance.__add__"]}
{"id": "C25", "title": "Gradient statistics are rescaled to the full data set", "statement": "backward() hands each parameter the sum of its per-frame statistics multiplied by data size / number of accumulated frames: with all the data accumulated the statistics are exactly the full-data statistics, and averaging the statistics over the batches of any partition, weighted by batch size, gives the full-data statistics. Calling it twice has the same effect as once; parameters without statistics are untouched; with no accumulated frame it fails.", "quantifier": "all data sets, all partitions in batches", "why_tests_cant": "Universal over partitions.", "anchors": ["beer/inference/objectives.py:EvidenceLowerBoundInstance.backward", "beer/inference/objectives.py:scale_acc_stats"]}
{"id": "C26", "title": "A full-step update is the exact Bayesian update", "statement": "With learning rate one, the posterior after an update depends only on the prior and the current statistics (natural parameters prior + statistics), not on the posterior before the update; with learning rate zero the posterior is unchanged; in general the new natural parameters are the convex combination.", "quantifier": "all priors, posteriors, statistics, learning rates", "why_tests_cant": "Universal algebraic claim.", "anchors": ["beer/models/parameters.py:ConjugateBayesianParameter.natural_grad_update"]}
{"id": "C27", "title": "Repeated damped updates converge geometrically to the exact posterior", "statement": "With constant statistics and learning rate r, after n updates the distance of the posterior natural parameters to prior + statistics is exactly (1-r)^n times the initial distance; hence for 0 < r < 2 training converges to the exact posterior.", "quantifier": "all numbers of updates, all learning rates, all statistics", "why_tests_cant": "Statement about all iteration counts and the limit.", "anchors": ["beer/models/parameters.py:ConjugateBayesianParameter.natural_grad_update"]}
{"id": "C28", "title": "The conjugate optimizer updates the mean-field groups fairly in turn", "statement": "After n steps of the optimizer with G groups, group g has been updated exactly floor((n + G - 1 - g)/G) times: the groups are visited cyclically, one group per step, nothing else is touched.", "quantifier": "all numbers of groups and steps", "why_tests_cant": "Unbounded number of steps.", "anchors": ["beer/inference/optimizers.py:VBConjugateOptimizer.step"]}
{"id": "C29", "title": "Stopping and resuming training is transparent", "statement": "Running n steps, saving the optimizer state, building a new optimizer on the same parameters, loading the state and running m steps gives the same parameters and optimizer state as running n + m steps without interruption, for every interruption point, including several interruptions.", "quantifier": "all interruption points, all numbers of steps, groups and learning rates", "why_tests_cant": "Every crash/resume point must be covered.", "anchors": ["beer/inference/optimizers.py:VBConjugateOptimizer.state_dict", "beer/inference/optimizers.py:VBConjugateOptimizer.load_state_dict", "beer/cli/subcommands/hmm/update.py"]}
{"id": "C30", "title": "A parameter that received no statistics returns to its prior", "statement": "If an optimisation step (learning rate one) is done after init_step and the objective holds no statistics for a parameter of the updated group, the parameter's posterior becomes its prior; statistics of earlier steps never leak into later ones.", "quantifier": "all histories of init_step / backward / step", "why_tests_cant": "History dependent.", "anchors": ["beer/inference/optimizers.py:VBConjugateOptimizer.init_step", "beer/models/parameters.py:ConjugateBayesianParameter.zero_stats", "beer/inference/objectives.py:EvidenceLowerBoundInstance.backward"]}
{"id": "C31", "title": "Posteriors stay valid distributions during the whole training", "statement": "Starting from valid priors, after any sequence of updates with learning rates in (0, 1] and statistics gathered from any data with any non-negative responsibilities, Dirichlet concentrations stay positive, Gamma shapes and rates stay positive, and Normal-Gamma / isotropic Normal-Gamma scales, shapes and rates stay positive.", "quantifier": "all data, all responsibilities, all learning-rate schedules, all numbers of updates", "why_tests_cant": "Invariant over unbounded histories; positivity of the rates needs a Cauchy-Schwarz argument.", "anchors": ["beer/dists/dirichlet.py", "beer/dists/gamma.py", "beer/dists/normalgamma.py", "beer/dists/isonormalgamma.py", "beer/models/parameters.py:ConjugateBayesianParameter.natural_grad_update"]}
{"id": "C32", "title": "Dirichlet parameters round-trip through natural parameters", "statement": "Converting concentrations to natural parameters and back gives the same concentrations, and conversely, for every dimension.", "quantifier": "all concentrations, all dimensions", "why_tests_cant": "Universal over dimensions.", "anchors": ["beer/dists/dirichlet.py:DirichletStdParams.from_natural_parameters", "beer/dists/dirichlet.py:Dirichlet.natural_parameters"]}
{"id": "C33", "title": "Dirichlet updates add counts", "statement": "Updating a Dirichlet posterior with learning rate one from responsibilities (one-hot or soft) gives the prior concentrations plus the summed responsibilities of each category.", "quantifier": "all priors, all responsibilities, all numbers of observations", "why_tests_cant": "Universal; the natural-parameter encoding with the special last coordinate hides off-by-one errors.", "anchors": ["beer/dists/dirichlet.py", "beer/models/categorical.py", "beer/models/categoricalset.py"]}
{"id": "C34", "title": "Gamma parameters round-trip through natural parameters", "statement": "Converting (shape, rate) to natural parameters and back gives the same parameters, for every dimension, and conversely.", "quantifier": "all shapes and rates, all dimensions", "why_tests_cant": "Universal over dimensions.", "anchors": ["beer/dists/gamma.py"]}
{"id": "C35", "title": "Normal-Gamma posteriors: round trip and textbook conjugate update", "statement": "Natural parameters of a Normal-Gamma round-trip; with learning rate one the posterior is the textbook one: scale k0 + sum r, mean (k0 m0 + sum r x)/k, shape a0 + sum r / 2, rate b0 + (sum r x^2 + k0 m0^2 - k m^2)/2, the same for any order of the data.", "quantifier": "all data, weights and prior parameters", "why_tests_cant": "Universal algebra.", "anchors": ["beer/dists/normalgamma.py"]}
{"id": "C36", "title": "Isotropic Normal-Gamma posteriors: round trip and conjugate update", "statement": "Same as C35 for the isotropic Normal-Gamma: natural parameters round-trip in every dimension D and the update adds D/2 per observation to the shape and the summed squared deviations over all dimensions to the rate.", "quantifier": "all data, dimensions and prior parameters", "why_tests_cant": "Universal algebra with dimension dependent constants.", "anchors": ["beer/dists/isonormalgamma.py"]}
{"id": "C37", "title": "Normal-Wishart parameters round-trip through natural parameters", "statement": "For every dimension D >= 1 and every invertible scale matrix, converting a Normal-Wishart to natural parameters (a flat vector) and back gives the same mean, scale, scale matrix and degrees of freedom; in particular the dimension is recovered exactly from the length of the flat vector.", "quantifier": "all dimensions and parameters", "why_tests_cant": "Universal over dimensions; slicing arithmetic.", "anchors": ["beer/dists/normalwishart.py:NormalWishartStdParams.from_natural_parameters"]}
{"id": "C38", "title": "Diagonal Normal parameters round-trip through natural parameters", "statement": "Converting mean and variance of a Normal distribution with diagonal covariance to natural parameters and back gives the same distribution.", "quantifier": "all means and variances", "why_tests_cant": "Universal; no test exercises the inverse conversion.", "anchors": ["beer/dists/normaldiag.py"]}
{"id": "C39", "title": "KL divergences are non-negative and vanish only for equal distributions", "statement": "The KL divergence reported between two Gamma, Dirichlet, Normal-Gamma or diagonal Normal distributions is non-negative for all valid parameters, and is zero if and only if the parameters are equal.", "quantifier": "all pairs of valid parameters, all dimensions", "why_tests_cant": "Inequality over a continuum, requires analysis of log-Gamma / digamma.", "anchors": ["beer/dists/basedist.py:kl_div", "beer/dists/gamma.py", "beer/dists/dirichlet.py", "beer/dists/normalgamma.py", "beer/dists/normaldiag.py"]}
{"id": "C40", "title": "KL divergence refuses incompatible distributions", "statement": "kl_div raises the type-mismatch error exactly when the two distributions are of different classes, and the dimension-mismatch error exactly when the classes agree but the supports have different dimension; otherwise it returns a value.", "quantifier": "all pairs of distributions", "why_tests_cant": "Exhaustive decision logic.", "anchors": ["beer/dists/basedist.py:kl_div"]}
{"id": "C41", "title": "Expected log weights never sum to more than one", "statement": "For every Dirichlet posterior, the exponentials of the expected log weights of the categories sum to at most one, so that mixtures and phone loops built on them are sub-normalised and never over-count probability.", "quantifier": "all concentrations, all numbers of categories", "why_tests_cant": "Real-analysis inequality on the digamma function.", "anchors": ["beer/models/categorical.py:Categorical.expected_log_likelihood", "beer/dists/dirichlet.py:Dirichlet.expected_sufficient_statistics"]}
{"id": "C42", "title": "Likelihood functions return the log density of the data", "statement": "The inner product of the sufficient statistics of a data point with the pdf vector of a distribution is the log density of the point (up to the documented constant) for the categorical, diagonal-normal, isotropic-normal and Gamma likelihoods.", "quantifier": "all data points and parameters", "why_tests_cant": "Universal; a sign error is invisible to shape-only tests.", "anchors": ["beer/dists/dirichlet.py:CategoricalLikelihood", "beer/dists/normalgamma.py", "beer/dists/isonormalgamma.py", "beer/dists/gamma.py:GammaLikelihood"]}
{"id": "C43", "title": "Subspace vectors decode to the parameters they encode", "statement": "Mapping a real vector to a pdf vector and reading the standard parameters back gives a valid distribution determined by all its coordinates: for the categorical a probability vector summing to one, for normals the mean coordinates and the exponential of the log-precision coordinates.", "quantifier": "all real vectors and dimensions", "why_tests_cant": "Universal; index slips only matter for some coordinates.", "anchors": ["beer/dists/dirichlet.py:CategoricalLikelihood.parameters_from_pdfvector", "beer/dists/isonormalgamma.py:pdfvectors_from_rvectors", "beer/dists/normalgamma.py"]}
{"id": "C44", "title": "Mixture responsibilities and objective", "statement": "For unlabelled data the responsibilities of every frame are non-negative and sum to one, and the returned value is the log of the weighted sum of the component likelihoods; no other choice of responsibilities yields a larger value of the local objective.", "quantifier": "all component log-likelihoods and weights, all alternative responsibilities", "why_tests_cant": "Optimality over a continuum.", "anchors": ["beer/models/mixture.py:Mixture.expected_log_likelihood"]}
{"id": "C45", "title": "Slicing a set of mixtures selects matching weights and components", "statement": "Indexing a mixture set with an index or a slice returns the mixtures at these positions, each with its own weights and its own components.", "quantifier": "all Python slices and indices", "why_tests_cant": "Slices are a large space (None, negative, step).", "anchors": ["beer/models/mixtureset.py:MixtureSet.__getitem__"]}
{"id": "C46", "title": "Concatenated model sets behave as one list", "statement": "A joint model set of lengths n1..nk has length n1+...+nk, its i-th element is the i-th element of the concatenation (an IndexError outside, a ValueError for negative i), and accumulating with responsibilities gives each member exactly the columns of its own components.", "quantifier": "all lists of model sets, all indices, all responsibilities", "why_tests_cant": "Universal over partitions.", "anchors": ["beer/models/modelset.py:JointModelSet"]}
{"id": "C47", "title": "Re-ordered model sets scatter responsibilities back", "statement": "For every order (with repetitions), gathering the log-likelihoods and scattering the responsibilities are adjoint: the responsibility given to an original component is the sum over the positions pointing to it, total mass is preserved at each frame, and the expected log-likelihood computed with re-ordered values equals the one computed with the original components.", "quantifier": "all orders with repetitions, all responsibilities", "why_tests_cant": "Universal; repeated indices are the bug-prone case (assignment instead of accumulation).", "anchors": ["beer/models/modelset.py:DynamicallyOrderedModelSet"]}
{"id": "C48", "title": "Repeated model sets", "statement": "The same adjointness holds for a repeated model set: its log-likelihood matrix has the component's values at every repetition (consistent with indexing) and accumulation sums the responsibilities over repetitions.", "quantifier": "all sizes, repeat counts and responsibilities", "why_tests_cant": "Universal over reshapes.", "anchors": ["beer/models/modelset.py:RepeatedModelSet"]}
{"id": "C49", "title": "Mean-field groups of composite models lose no parameter", "statement": "The mean-field factorisation of a mixture, mixture set or phone loop contains exactly the parameters of its parts, with multiplicity, parameters of different groups of one part stay in different groups, and groups appear in order.", "quantifier": "all group lists of the parts, of any lengths", "why_tests_cant": "Universal over lengths (zip truncation bugs).", "anchors": ["beer/models/mixture.py:mean_field_factorization", "beer/models/phoneloop.py:mean_field_factorization", "beer/models/basemodel.py:bayesian_parameters"]}
{"id": "C50", "title": "Stick-breaking statistics", "statement": "For every count vector, each category's stick-breaking statistics are (its count, the total count of the categories ranked after it), categories being ranked by decreasing count; the total over first entries is the total count.", "quantifier": "all count vectors, all sizes, ties included", "why_tests_cant": "Sorting and un-sorting permutations for arbitrary sizes.", "anchors": ["beer/models/categorical.py:SBCategorical._transform_stats"]}
{"id": "C51", "title": "Stick-breaking weights", "statement": "The mean weights of a stick-breaking categorical are non-negative and sum to one minus the product of the remaining stick lengths, hence never more than one, whatever the ordering.", "quantifier": "all stick posteriors, all orderings", "why_tests_cant": "Universal over sizes and permutations.", "anchors": ["beer/models/categorical.py:SBCategorical.mean"]}
{"id": "C52", "title": "Stick-breaking concentration hyper-prior update", "statement": "After each update of the sticks the concentration posterior is Gamma(shape0 + K, rate0 - sum E[log(1-v)]): it depends on the hyper-prior and the current sticks only, never on previous concentration posteriors, and stays valid.", "quantifier": "all histories of updates", "why_tests_cant": "History dependent.", "anchors": ["beer/models/categorical.py:SBCategoricalHyperPrior"]}
{"id": "C53", "title": "Edit distance used for scoring is the true minimum", "statement": "The error count computed between a reference and a hypothesis is the minimum number of insertions, deletions and substitutions turning one into the other; it is symmetric, satisfies the triangle inequality, is zero exactly for equal sequences, and lies between the length difference and the maximum length.", "quantifier": "all pairs of token sequences", "why_tests_cant": "Minimum over infinitely many edit scripts.", "anchors": ["recipes/aud/utils/ter.py:wer"]}
{"id": "C54", "title": "The two scoring scripts agree", "statement": "The dynamic programs of the two recipes (match short-cut vs. three-way minimum) give the same error count on every pair of sequences.", "quantifier": "all pairs of token sequences", "why_tests_cant": "Equivalence of two programs.", "anchors": ["recipes/aud/utils/ter.py:wer", "recipes/timit_v2/utils/score.py"]}
{"id": "C55", "title": "Boundary scores are proper counts", "statement": "The number of boundary hits never exceeds the number of hypothesised boundaries nor the number of reference boundaries, hence precision and recall are between 0 and 1; hits correspond to a one-to-one matching within the tolerance.", "quantifier": "all boundary lists (below the sentinel value) and tolerances", "why_tests_cant": "Universal over lists; depends on the destructive marking of used boundaries.", "anchors": ["recipes/aud/utils/score_boundaries.py:get_hits"]}
{"id": "C56", "title": "Boundary scores of the alternative script", "statement": "The number of hits computed by the alternative boundary scorer never exceeds the number of hypothesised boundaries.", "quantifier": "all boundary lists", "why_tests_cant": "Needs an adversarial input.", "anchors": ["recipes/aud/utils/score_boundaries2.py:get_hits"]}
{"id": "C57", "title": "Data-set statistics are exact and independent of utterance order", "statement": "The mean and variance stored in a data set equal the mean and (population) variance over all frames of all utterances, whatever the order and segmentation in utterances; the variance is never negative.", "quantifier": "all data sets, orders and segmentations", "why_tests_cant": "Universal over segmentations.", "anchors": ["beer/cli/subcommands/dataset/create.py:accumulate"]}
{"id": "C58", "title": "Delta features", "statement": "Adding deltas keeps the number of frames, multiplies the number of columns by one plus the number of windows, keeps the original features first, gives zero deltas for constant features and is linear in the features.", "quantifier": "all feature matrices and window lengths", "why_tests_cant": "Universal over lengths, edge padding.", "anchors": ["beer/features.py:add_deltas"]}
{"id": "C59", "title": "Delta features measure the slope", "statement": "On a feature growing linearly with time the delta away from the edges equals the slope.", "quantifier": "all slopes and window lengths", "why_tests_cant": "Numeric tests compare against stored values of the same code.", "anchors": ["beer/features.py:add_deltas"]}
{"id": "C60", "title": "Framing never reads outside the signal", "statement": "When the signal is at least one frame long, every frame of the spectrogram reads only samples of the signal, the number of frames is the largest possible for the frame rate, and the FFT length is a power of two larger than the frame.", "quantifier": "all signal lengths, frame lengths and rates", "why_tests_cant": "Memory-safety style claim over all integer sizes (strided view).", "anchors": ["beer/features.py:short_term_mspec"]}
{"id": "C61", "title": "Frequency-scale conversions are inverse and monotone", "statement": "Hz to mel to Hz and Hz to Bark to Hz are the identity on non-negative frequencies, both ways, and the conversions are strictly increasing.", "quantifier": "all frequencies", "why_tests_cant": "Continuum.", "anchors": ["beer/features.py:hz2mel", "beer/features.py:mel2hz", "beer/features.py:hz2bark", "beer/features.py:bark2hz"]}
{"id": "C62", "title": "Stable log-sum-exp", "statement": "The stabilised computation returns log of the sum of exponentials for every non-empty tensor of finite or -inf values, and -inf when all are -inf.", "quantifier": "all vectors", "why_tests_cant": "Includes the -inf corner cases for every position.", "anchors": ["beer/utils.py:logsumexp"]}
{"id": "C63", "title": "One-hot encoding", "statement": "Each row of the one-hot matrix has exactly one 1 at the position of the label and zeros elsewhere, and an out-of-range label is an error; labels -max..-1 count from the end.", "quantifier": "all label sequences and sizes", "why_tests_cant": "Universal; negative and out-of-range labels.", "anchors": ["beer/utils.py:onehot"]}
{"id": "C64", "title": "GPU reservation terminates and is truthful in adversarial environments", "statement": "With at most max_retry polling rounds, reserve_gpu either returns the index of a GPU on which the allocation just succeeded (and which is the visible device), or fails with NoGPUAvailable after exactly max_retry rounds without any success.", "quantifier": "all environments (which GPUs are active or fail at which time)", "why_tests_cant": "Quantifies over adversarial schedules.", "anchors": ["beer/utils.py:reserve_gpu"]}
{"id": "C65", "title": "Enforced symmetric positive definite matrices", "statement": "The matrix returned is symmetric and, whenever the largest eigenvalue of the symmetrised input is positive, its eigenvalues are at least threshold times the largest one; a matrix already satisfying this is unchanged.", "quantifier": "all matrices with an orthonormal eigendecomposition", "why_tests_cant": "Universal over matrices.", "anchors": ["beer/utils.py:make_symposdef", "beer/utils.py:symmetrize_matrix"]}
{"id": "C66", "title": "Auto-regressive networks are auto-regressive", "statement": "In the masked network, the d-th output (mean and variance) does not depend on the inputs d, d+1, ..., for every depth, width, random choice of connections, weights and activation.", "quantifier": "all depths, widths, random masks, weights, activations", "why_tests_cant": "Ranges over random choices made at construction and all weights.", "anchors": ["beer/nnet/arnet.py:create_mask", "beer/nnet/arnet.py:create_final_mask", "beer/nnet/arnet.py:AutoRegressiveNetwork"]}
{"id": "C67", "title": "Subspace model parameter slicing", "statement": "When a subspace model writes a vector back into the models it covers, each parameter receives exactly its own slice: concatenating the slices gives back the vector, slices are disjoint and have the parameter's dimension.", "quantifier": "all lists of parameters with any dimensions", "why_tests_cant": "Universal over partitions.", "anchors": ["beer/models/gsm.py:_pdfvecs", "beer/models/gsm.py:_update_params"]}
{"id": "C68", "title": "Batch mode '-1' updates once per epoch", "statement": "With batch size -1 the training command accumulates all the utterances of an epoch before a single update.", "quantifier": "all numbers of utterances", "why_tests_cant": "Depends on the sign convention of the modulo operator for all counters.", "anchors": ["beer/cli/subcommands/hmm/train.py"]}
{"id": "C69", "title": "Bigram phone loop trained with alignments", "statement": "Accumulating statistics of a bigram phone loop succeeds with forced alignments and gives zero statistics for the bigram weights.", "quantifier": "all alignments", "why_tests_cant": "Error branch not covered by tests.", "anchors": ["beer/models/phoneloop.py:BigramPhoneLoop.accumulate", "beer/models/categoricalset.py"]}
{"id": "C70", "title": "Replacing parameters reaches every parameter of the model", "statement": "After replace_parameters with a map, every parameter of the model that is a key of the map has been replaced by its image, anywhere in the model tree.", "quantifier": "all model trees", "why_tests_cant": "Universal over tree shapes (containers).", "anchors": ["beer/models/basemodel.py:Model.replace_parameters"]}
{"id": "C71", "title": "Distributed training equals single-process training", "statement": "Accumulating statistics in any number of jobs over any split of the utterances, then merging the job files and doing one update, gives the same posterior as one process treating all utterances at once, and equals the exact conjugate posterior of the complete data for conjugate models with learning rate one.", "quantifier": "all splits, all data sets", "why_tests_cant": "End-to-end claim over all partitions.", "anchors": ["beer/cli/subcommands/hmm/accumulate.py", "beer/cli/subcommands/hmm/update.py", "beer/inference/objectives.py"]}
{"id": "C72", "title": "Collapsing repeated labels", "statement": "Collapsing frame labels to a transcription yields a sequence with no two equal neighbours, is idempotent, and expanding each label to any positive duration and collapsing gives the original collapsed sequence.", "quantifier": "all label sequences and durations", "why_tests_cant": "Universal over sequences.", "anchors": ["recipes/aud/utils/ali2trans.py", "recipes/timit_v2/utils/convert-ali-to-best-path.py", "recipes/timit_v2/utils/score.py:filter_text"]}
{"id": "C73", "title": "The learning rate option of the update command is honoured", "statement": "Each call of the update command uses the learning rate given on its command line, also when the optimizer state of an earlier update is loaded.", "quantifier": "all learning rates, all optimizer states", "why_tests_cant": "Needs the interaction of constructor argument and restored state for all values.", "anchors": ["beer/cli/subcommands/hmm/update.py", "beer/inference/optimizers.py:VBConjugateOptimizer.load_state_dict"]}
{"id": "C74", "title": "Utterances missing from the data set are skipped", "statement": "The accumulate command given a list of utterance ids, some of which are not in the data set, accumulates exactly the ones that are present.", "quantifier": "all lists of ids, all data sets", "why_tests_cant": "Depends on the position of the missing utterances in the list.", "anchors": ["beer/cli/subcommands/hmm/accumulate.py"]}
{"id": "C75", "title": "The compiled graph does not depend on the iteration order of the arcs", "statement": "Compiling the same graph (same states, same weighted arcs) always gives the same transition weights, whatever the order in which Python iterates over the set of arcs.", "quantifier": "all graphs, all iteration orders of the arc set", "why_tests_cant": "A test sees only the iteration orders produced by one interpreter.", "anchors": ["beer/graph.py:Graph.find_next_pdf_ids", "beer/graph.py:Graph.compile"]}
{"id": "C76", "title": "Normal-Wishart posteriors are the textbook conjugate ones", "statement": "With learning rate one the Normal-Wishart posterior has scale k0 + sum r, mean (k0 m0 + sum r x)/k, inverse scale matrix W0^-1 + sum r x x^T + k0 m0 m0^T - k m m^T and degrees of freedom v0 + sum r, whatever the previous posterior and the order of the data.", "quantifier": "all dimensions, priors, data and non-negative weights", "why_tests_cant": "Universal matrix algebra; existence of the inverse needs a Cauchy-Schwarz argument.", "anchors": ["beer/dists/normalwishart.py:NormalWishart.natural_parameters", "beer/dists/normalwishart.py:NormalLikelihood.sufficient_statistics", "beer/models/parameters.py:ConjugateBayesianParameter.natural_grad_update"]}
{"id": "C77", "title": "Advertised statistics dimensions are the real ones", "statement": "sufficient_statistics_dim() of a likelihood is the length of its sufficient statistics, and every real vector of length sufficient_statistics_dim(zero_stats=False) decodes to a pdf vector as long as the sufficient statistics (so that subspace models can be dimensioned with it).", "quantifier": "all likelihoods, all dimensions, all real vectors", "why_tests_cant": "Quantifies over dimensions; small dimensions hide the discrepancy (d = 1).", "anchors": ["beer/dists/normalwishart.py:NormalLikelihood.sufficient_statistics_dim", "beer/dists/normaldiag.py", "beer/dists/normalgamma.py", "beer/dists/isonormalgamma.py", "beer/dists/gamma.py", "beer/dists/dirichlet.py"]}
{"id": "C78", "title": "Joint model sets with shared parameters", "statement": "When the same parameter occurs in several members of a joint model set, accumulating statistics gives it the sum of the statistics of all these members.", "quantifier": "all lists of model sets, all responsibilities", "why_tests_cant": "The statistics are silently overwritten by a dictionary update; a test needs a set with tied parameters.", "anchors": ["beer/models/modelset.py:JointModelSet.accumulate"]}
{"id": "C79", "title": "Iterating over a model set terminates", "statement": "Iterating over a model set (they are documented to be iterable) visits its elements once each, in order, and stops.", "quantifier": "all model sets", "why_tests_cant": "A non-terminating loop cannot be observed by a test that terminates.", "anchors": ["beer/models/modelset.py:ModelSet", "beer/models/modelset.py:JointModelSet.__getitem__", "beer/models/modelset.py:RepeatedModelSet.__getitem__"]}
{"id": "C80", "title": "Stick-breaking expected log-weights", "statement": "The expected log-likelihood of a stick-breaking categorical is linear in the counts; the log-weight of a category is E[ln v] of its own stick plus the sum of E[ln(1-v)] of the sticks ranked before it; the exponentials of all log-weights sum to less than one.", "quantifier": "all stick posteriors, all orderings", "why_tests_cant": "Involves the digamma function for all parameters and all permutations.", "anchors": ["beer/models/categorical.py:SBCategorical._log_prob", "beer/models/categorical.py:SBCategorical.expected_log_likelihood"]}
{"id": "C81", "title": "Prior of a hierarchical stick-breaking set", "statement": "The prior of every member of a hierarchical stick-breaking set has the mean weights of the root process.", "quantifier": "all root processes, all orderings of the root", "why_tests_cant": "Holds for the initial ordering, which is the only one a short test sees.", "anchors": ["beer/models/categoricalset.py:_default_set_sb_param", "beer/models/categoricalset.py:SBCategoricalSet._update_root_sb"]}
{"id": "C82", "title": "Flow steps are invertible with the stated log-determinant", "statement": "Every inverse auto-regressive flow step is a bijection of the data space and its Jacobian is triangular with the standard deviations on the diagonal, so the correction added to the log-likelihood of the samples is minus the log-determinant; the log-likelihood returned with the samples of the whole flow is the standard normal log-density of the noise minus the log-determinants of the maps applied to it, whatever the number of flow parameters; it is the logarithm of the density of the law of the samples at the sample, also with use_mean.", "quantifier": "all networks, weights, activations, numbers of steps, flow parameters and noise", "why_tests_cant": "Universal over networks and points; invertibility cannot be observed from samples.", "anchors": ["beer/nnet/arnet.py:AutoRegressiveNetwork", "beer/nnet/problayers.py:InverseAutoRegressiveFlow"]}
{"id": "C83", "title": "Decoding graphs accept exactly the sequences of units", "statement": "The decoding graph built from a list of units and their HMMs accepts exactly the pdf sequences obtained by concatenating sequences accepted by the HMMs of a sequence of units: any sequence of units, or with a start/end group any non-empty sequence beginning and ending with a unit of the group.", "quantifier": "all unit inventories, all well-formed HMMs, all sequences", "why_tests_cant": "Equality of two infinite languages over all inventories.", "anchors": ["beer/cli/subcommands/hmm/mkphoneloopgraph.py:main", "beer/cli/subcommands/hmm/mkdecodegraph.py:main", "beer/graph.py:Graph.replace_state"]}
{"id": "C84", "title": "Every unit gets the topology of its group and its own pdfs", "statement": "For every configuration with sensible topologies and every list of units of known groups, mkphones makes exactly one HMM per unit with the topology of its group, whose emitting states own consecutive pdf ids, the ids of all the units being 0 .. n-1 with n the number of emission models.", "quantifier": "all configurations, all lists of units", "why_tests_cant": "Universal over configurations; the failing case (a configured group without unit) depends on the order of the groups.", "anchors": ["beer/cli/subcommands/hmm/mkphones.py:main", "beer/cli/subcommands/hmm/mkphones.py:create_unit_graph"]}
{"id": "C85", "title": "KL divergence between Normal-Wishart distributions", "statement": "For two NormalWishart distributions with valid parameters of the same dimension kl_div returns a number that is never negative and is zero exactly when the parameters are equal; the log-normaliser lies above its tangent given by expected_sufficient_statistics. Different dimensions, or a scale matrix without Cholesky factor, raise an exception.", "quantifier": "all dimensions, all pairs of valid Normal-Wishart parameters", "why_tests_cant": "tests compare a handful of 2x2 cases with a closed form written from the same formulas; non-negativity over all positive definite matrices is an inequality about determinants and traces", "anchors": ["beer/dists/basedist.py:kl_div", "beer/dists/normalwishart.py:NormalWishart.expected_sufficient_statistics", "beer/dists/normalwishart.py:NormalWishart.log_norm"]}
{"id": "C86", "title": "A natural gradient step never decreases the objective", "statement": "For a conjugate parameter (Normal-Gamma, isotropic Normal-Gamma, Normal-Wishart, Dirichlet) and any weighted data, natural_grad_update with learning rate l in (0,1] changes the objective (scaled expected log-likelihood minus KL to the prior) by exactly ((1-l) KL(new||old) + KL(old||new)) / l, hence never decreases it, and leaves it unchanged exactly when the posterior is unchanged.", "quantifier": "all valid priors and posteriors, all data with non-negative weights, all scales >= 0, all learning rates in (0,1]", "why_tests_cant": "tests observe an increase on a few random batches; the sign of the change for every learning rate and batch is an inequality about log-normalisers (log-gamma and log-determinant functions)", "anchors": ["beer/models/parameters.py:ConjugateBayesianParameter.natural_grad_update", "beer/dists/basedist.py:kl_div", "beer/inference/objectives.py:evidence_lower_bound"]}
{"id": "C87", "title": "Variational training of mixtures is monotone", "statement": "Repeating evidence_lower_bound / backward / VBConjugateOptimizer.step on the same non-empty batch with any learning rates in (0,1] never raises, keeps all parameters valid and never decreases the value of evidence_lower_bound, for a Mixture over any nesting of NormalSet (diagonal, isotropic, full), CategoricalSet, MixtureSet, DynamicallyOrderedModelSet, RepeatedModelSet and JointModelSet. An empty batch raises ZeroDivisionError.", "quantifier": "all numbers of components and dimensions, all valid parameters, all data, all numbers of iterations and learning rates", "why_tests_cant": "tests run a few iterations on one data set; monotonicity for all inputs combines Jensen's inequality for the responsibilities with the gain of every parameter update", "anchors": ["beer/models/mixture.py:Mixture.expected_log_likelihood", "beer/models/mixture.py:Mixture.accumulate", "beer/models/mixtureset.py:MixtureSet", "beer/models/normalset.py:NormalSet", "beer/models/categoricalset.py:CategoricalSet", "beer/models/modelset.py:DynamicallyOrderedModelSet", "beer/models/modelset.py:RepeatedModelSet", "beer/models/modelset.py:JointModelSet", "beer/inference/objectives.py:evidence_lower_bound", "beer/inference/optimizers.py:VBConjugateOptimizer"]}
{"id": "C88", "title": "Variational training of HMMs is monotone", "statement": "Training an HMM (accumulation over utterances, then update of the emissions) with any acoustic scale >= 0 and learning rates in (0,1] never decreases the variational objective: the scaled sum of the log-probabilities of the utterances over all state sequences minus the KL divergence of the parameters. No exception is raised when every utterance has a path in the graph.", "quantifier": "all graphs, all emission sets as in C87, all utterances with a path, all scales and learning rates, any number of iterations", "why_tests_cant": "the sum over state sequences is exponential in the number of frames and no test can compute it independently for realistic utterances; the inequality involves every emission parameter", "anchors": ["beer/models/hmm.py:HMM.expected_log_likelihood", "beer/models/hmm.py:HMM.accumulate", "beer/graph.py:CompiledGraph.posteriors", "beer/inference/objectives.py:evidence_lower_bound"]}
{"id": "C89", "title": "The value reported for an HMM is a lower bound of the log-probability", "statement": "evidence_lower_bound of an HMM is a lower bound of the log-probability of the utterance.", "quantifier": "all graphs, emission parameters and utterances", "why_tests_cant": "a test would need the exact marginal probability of an utterance; on most random inputs the reported number is below it, so that failures go unnoticed", "anchors": ["beer/models/hmm.py:HMM.expected_log_likelihood", "beer/inference/objectives.py:evidence_lower_bound"]}
{"id": "C90", "title": "One full step gives the exact posterior and the exact evidence", "statement": "For a single conjugate parameter the update with learning rate one reaches, from any starting posterior, the posterior that maximises the objective: every other posterior q falls short by exactly KL(q||best), and the maximum is log_norm(best) - log_norm(prior) plus the constant of the likelihood for every weighted data point.", "quantifier": "all four conjugate families, all valid priors and starting posteriors, all weighted data", "why_tests_cant": "optimality against every other distribution of the family is a statement over a continuum that tests can only sample", "anchors": ["beer/models/parameters.py:ConjugateBayesianParameter.natural_grad_update", "beer/dists/basedist.py:kl_div", "beer/models/normal.py:Normal.expected_log_likelihood", "beer/models/categorical.py:Categorical.expected_log_likelihood"]}
{"id": "C91", "title": "Normal.create gives the requested mean and covariance", "statement": "For cov_type full, Normal.create(mean, cov, strength, cov_type) has .mean equal to mean and .cov equal to the requested covariance (scalar, vector or matrix); for diagonal, .cov is its diagonal; for isotropic, the largest variance times the identity. Prior and posterior are equal and valid. An unknown cov_type raises UnknownCovarianceType.", "quantifier": "all dimensions, means, strengths > 0, positive definite covariances (positive variances for diagonal and isotropic), all strings", "why_tests_cant": "a test compares a few covariances with a tolerance; the round trip through inverse, scaling by the degrees of freedom and expected value holds for all matrices", "anchors": ["beer/models/normal.py:Normal.create", "beer/models/normal.py:_full_cov", "beer/models/normal.py:Normal.cov", "beer/models/normal.py:UnknownCovarianceType"]}
{"id": "C92", "title": "NormalSet.create is valid for every draw of the noise", "statement": "NormalSet.create gives every member a valid prior and posterior whatever the random numbers and noise_std; prior means are the requested mean, posterior means are shifted by randn * noise_std * standard deviation per coordinate, covariances are those of C91.", "quantifier": "all sizes, dimensions, means, covariances as in C91, strengths > 0, all real noise", "why_tests_cant": "the noise is random: a test sees one draw", "anchors": ["beer/models/normalset.py:NormalSet.create"]}
{"id": "C93", "title": "Identical components are never separated by training", "statement": "A mixture whose components are identical and whose weights are uniform (as created with noise_std=0) keeps identical components and uniform weights through any training, and every frame is shared equally between its components.", "quantifier": "all conjugate families, numbers of components, data, data sizes, numbers of steps and learning rates", "why_tests_cant": "an invariant over all training runs; a test runs one", "anchors": ["beer/models/mixture.py:Mixture.create", "beer/models/mixture.py:Mixture.accumulate", "beer/models/normalset.py:NormalSet.create"]}
{"id": "C94", "title": "Created mixtures can be trained", "statement": "A Mixture created with uniform weights over a NormalSet from NormalSet.create, for each type of covariance, can be trained on any non-empty batch with learning rates in (0,1] without exception and with a lower bound that never decreases. MixtureSet.create gives valid weights, and raises ZeroDivisionError for size 0.", "quantifier": "all dimensions, numbers of components, means, covariances as in C91, strengths > 0, noise, data, numbers of steps", "why_tests_cant": "end-to-end statement over all initialisations, data and training lengths", "anchors": ["beer/models/mixture.py:Mixture.create", "beer/models/mixtureset.py:MixtureSet.create", "beer/models/normalset.py:NormalSet.create", "beer/models/categorical.py:Categorical.create"]}
{"id": "C95", "title": "Distribution objects give log densities", "statement": "For NormalDiagonalCovariance, calling the object on sufficient statistics gives the log density of the data under the stated mean and variances: for one distribution on a batch of data, pdfwise for a batch of distributions, and for a batch of K distributions on a batch of N data (a K x N table). NormalFullCovariance gives the same for its mean and covariance matrix, for one distribution and for batches. log_norm of the normal and Gamma distributions makes exp(natural . stats - log_norm) the density.", "quantifier": "all dimensions, means, positive variances / positive definite covariances, data, batch sizes", "why_tests_cant": "an identity over all parameters and shapes; a test evaluates a few points and batch sizes", "anchors": ["beer/dists/normaldiag.py:NormalDiagonalCovariance.forward", "beer/dists/normaldiag.py:NormalDiagonalCovariance.log_norm", "beer/dists/normal.py:NormalFullCovariance.forward", "beer/dists/normal.py:NormalFullCovariance.log_norm", "beer/dists/gamma.py:Gamma.log_norm"]}
{"id": "C96", "title": "KL divergence and natural parameters of normal distributions", "statement": "kl_div between two NormalFullCovariance distributions is never negative, is zero exactly when they are equal, and raises for different dimensions. Standard parameters of a NormalFullCovariance are recovered from its natural parameters. kl_div of batches of NormalDiagonalCovariance is computed row by row.", "quantifier": "all dimensions, means, positive definite covariances, batch sizes", "why_tests_cant": "algebraic identities over all matrices; tests use one dimension", "anchors": ["beer/dists/basedist.py:kl_div", "beer/dists/normal.py:NormalFullCovariance.natural_parameters", "beer/dists/normal.py:NormalFullCovarianceStdParams.from_natural_parameters", "beer/dists/normaldiag.py:NormalDiagonalCovariance.expected_sufficient_statistics"]}
{"id": "C97", "title": "Samples have the stated mean and covariance", "statement": "When the noise has mean zero and identity covariance, the samples of NormalFullCovariance and NormalDiagonalCovariance have the mean and the covariance of the distribution.", "quantifier": "all dimensions, means, positive definite covariances / positive variances, noise distributions with these moments", "why_tests_cant": "a statement about an expectation; sampling only estimates it", "anchors": ["beer/dists/normal.py:NormalFullCovariance.sample", "beer/dists/normaldiag.py:NormalDiagonalCovariance.sample"]}
{"id": "C98", "title": "The objective of the VAE is the sum of the contributions of the frames", "statement": "For a VAE and a batch of N frames, evidence_lower_bound is datasize/N times the sum over the frames of (weighted average reconstruction log density of the samples minus weighted sampled divergence between posterior and prior), minus the divergence of the global parameters. Averaging the prior statistics over the samples gives the average of the prior log-likelihoods for conjugate priors. An empty batch raises.", "quantifier": "all encoders, decoders, priors, batch sizes, numbers of samples, weights, noise", "why_tests_cant": "the wrong broadcast gives a plausible number, and batches of one frame are right; only a statement over all batch sizes shows it", "anchors": ["beer/models/vae.py:VAE.expected_log_likelihood", "beer/models/vae.py:MeanLogDiagCov.diag_cov", "beer/inference/objectives.py:evidence_lower_bound"]}
{"id": "C99", "title": "Expected sufficient statistics and expected values are true expectations", "statement": "expected_sufficient_statistics() of Dirichlet, Gamma, NormalGamma, IsotropicNormalGamma, NormalWishart and the normal distributions returns the expectation of the sufficient statistics under the distribution; Dirichlet.expected_value() is the mean of the weights; the expected log-likelihood of a one-hot observation under a categorical model is the expectation of the log-weight.", "quantifier": "all dimensions and all valid parameters", "why_tests_cant": "expectations are integrals; the tests compare the formulas with themselves or with a re-typed copy", "anchors": ["beer/dists/dirichlet.py:Dirichlet.expected_sufficient_statistics", "beer/dists/dirichlet.py:Dirichlet.expected_value", "beer/dists/gamma.py:Gamma.expected_sufficient_statistics", "beer/dists/normalgamma.py:NormalGamma.expected_sufficient_statistics", "beer/dists/isonormalgamma.py:IsotropicNormalGamma.expected_sufficient_statistics", "beer/dists/normaldiag.py:NormalDiagonalCovariance.expected_sufficient_statistics", "beer/dists/normal.py:NormalFullCovariance.expected_sufficient_statistics", "beer/dists/normalwishart.py:NormalWishart.expected_sufficient_statistics"]}
{"id": "C100", "title": "Unconstrained parametrisations always give valid normals", "statement": "Whatever real numbers gradient descent reaches, the diagonal parametrisation of the subspace models has variances above 1e-4 and the full one a symmetric positive definite covariance whose Cholesky factor has a diagonal above 1e-3, filled row by row; every such covariance is reached by exactly one choice of numbers. New latent posteriors and transforms have the documented initial values; unknown covariance types, an empty latent space and a non-positive prior strength raise.", "quantifier": "all dimensions and all real values of the trained numbers", "why_tests_cant": "validity along every possible optimisation path", "anchors": ["beer/models/gsm.py:_MeanLogDiagCov.diag_cov", "beer/models/gsm.py:_MeanLogDiagLL.cov", "beer/models/gsm.py:GSM.new_latent_posteriors", "beer/models/gsm.py:AffineTransform.create"]}
{"id": "C101", "title": "Expected pdf-vectors of a subspace model are averages over its own samples", "statement": "The super-vectors of model n are W'h + b for all pairs of a latent sample of model n and a sample of the transform, latent sample first; expected_pdfvecs of model n is the average of their pdf-vectors, and does not depend on the other models of the batch.", "quantifier": "all numbers of models, latent samples, parameter samples, dimensions and noise", "why_tests_cant": "a wrong reshape mixes the samples of different models and still returns the right shape", "anchors": ["beer/models/gsm.py:AffineTransform.forward", "beer/models/gsm.py:_rvecs_from_samples", "beer/models/gsm.py:_pdfvecs_from_rvecs", "beer/models/gsm.py:GSM.expected_pdfvecs"]}
{"id": "C102", "title": "The objective of the subspace model is unbiased, and a lower bound for mixture priors", "statement": "GSM.expected_log_likelihood of model n is the scalar product of its expected pdf-vector and its statistics minus the sampled divergence of its latent posterior. For a latent prior affine in its statistics its expectation over the noise is the exact expected log-likelihood minus the exact divergence; for a mixture as latent prior the value never exceeds the one with the mixture log density of the samples.", "quantifier": "all models, posteriors, statistics, numbers of samples, conjugate or mixture latent priors", "why_tests_cant": "an expectation over continuous noise, and an inequality over all parameters", "anchors": ["beer/models/gsm.py:GSM.expected_log_likelihood", "beer/models/gsm.py:_xentropy", "beer/models/gsm.py:_entropy"]}
{"id": "C103", "title": "Statistics and pdf-vectors of a subspace model are laid out alike", "statement": "The scalar product of the statistics row of a model with its pdf-vector is the sum, over its subspace parameters, of the scalar product of the statistics of the parameter with the pdf-vector written into that parameter.", "quantifier": "all numbers and sizes of parameters", "why_tests_cant": "a permuted layout has the right total size", "anchors": ["beer/models/gsm.py:GSM.sufficient_statistics", "beer/models/gsm.py:_update_params"]}
{"id": "C104", "title": "Sets of subspace models pair every model with every class", "statement": "Entry (n, k) of GSMSet.expected_log_likelihood uses the statistics and latent posterior of model n and the mean of class k; with responsibilities summing to one, their weighted sum is the value of the weighted pdf-vector that accumulate writes into model n, with the divergence of its posterior counted once.", "quantifier": "all numbers of models and classes, samples and noise", "why_tests_cant": "transposed or permuted tables are only visible for particular sizes", "anchors": ["beer/models/gsm.py:GSMSet.expected_log_likelihood", "beer/models/gsm.py:GSMSet.accumulate", "beer/models/gsm.py:LinearTransform.forward"]}
{"id": "C105", "title": "The hierarchical objective is the bound summed over languages", "statement": "The weights and bias a language uses are the two parts of the root super-vector of its own language vector; evidence_lower_bound of a HierarchicalGSM is, over languages and units, expected log-likelihood minus the divergence of the unit vector, minus the divergence of every language vector, minus the divergence of every global parameter counted once; with no language, unit, or sample it raises. Its expectation over the noise is the exact bound when the priors are affine in their statistics.", "quantifier": "all numbers of languages, units, samples and dimensions, all noise", "why_tests_cant": "slices and reshapes of sampled tensors, an expectation over continuous noise, and double counting that only shifts a value", "anchors": ["beer/models/gsm.py:HierarchicalAffineTransform.forward", "beer/models/gsm.py:HierarchicalGSM.expected_log_likelihood", "beer/models/gsm.py:HierarchicalGSM.mean_field_factorization", "beer/inference/objectives.py:evidence_lower_bound"]}
{"id": "C106", "title": "Training fits the prior over the latent vectors", "statement": "After an epoch of the training commands with learning rate one, the posterior of the latent prior is its prior plus the average statistics of the latent vectors; with the options that freeze the subspace it is unchanged.", "quantifier": "all numbers of epochs, units, languages and learning rates", "why_tests_cant": "a parameter that silently receives no statistics still gives a training that runs and an objective that moves", "anchors": ["beer/cli/subcommands/shmm/train.py:main", "beer/cli/subcommands/hshmm/train.py:main", "beer/models/gsm.py:GSM.accumulate", "beer/models/gsm.py:HierarchicalGSM.accumulate", "beer/inference/optimizers.py:VBConjugateOptimizer.step"]}
{"id": "C107", "title": "A new subspace phone-loop starts from the statistics of the phone-loop", "statement": "shmm mksphoneloop recovers the statistics of every parameter of the trained phone-loop (posterior minus prior), and then spreads those of a unit evenly over its states and components: the weights and the Gaussians of the unit keep the number of frames it had.", "quantifier": "all numbers of states, components and statistics, all values", "why_tests_cant": "a wrong scale is hidden by the training that follows", "anchors": ["beer/cli/subcommands/shmm/mksphoneloop.py:param_stats", "beer/cli/subcommands/shmm/mksphoneloop.py:init_weights_stats", "beer/cli/subcommands/shmm/mksphoneloop.py:init_means_precisions_stats"]}
{"id": "C108", "title": "The label of a unit is its class", "statement": "With --classes, label i written by shmm mksphoneloop is the number of the class of unit i of the group, classes being numbered in alphabetic order; units have the same label exactly when they have the same class. Malformed lines raise.", "quantifier": "all class files and lists of units", "why_tests_cant": "depends on which units are in the file", "anchors": ["beer/cli/subcommands/shmm/mksphoneloop.py:main"]}
{"id": "C109", "title": "The units of the subspace model are the units of the chosen group", "statement": "The command makes one unit per unit of the group given by --unit-group, with exactly the emissions mkphones gave to its HMM; unknown groups raise.", "quantifier": "all configurations, topologies, numbers of units, states and components", "why_tests_cant": "off-by-one state counts give units straddling two HMMs without any error", "anchors": ["beer/cli/subcommands/shmm/mksphoneloop.py:iterate_units", "beer/cli/subcommands/shmm/mksphoneloop.py:main", "beer/cli/subcommands/hshmm/mksphoneloop.py:main", "beer/cli/subcommands/hmm/mkphones.py:create_unit_graph"]}
{"id": "C110", "title": "Given posteriors are used for the initialisation", "statement": "shmm mksphoneloop --posteriors reads the posteriors of the given file and leaves the file as it is.", "quantifier": "all files", "why_tests_cant": "the loss of a file is not the failure of an assertion", "anchors": ["beer/cli/subcommands/shmm/mksphoneloop.py:main"]}
{"id": "C111", "title": "Token error rates", "statement": "ter.py prints 100 times the smallest number of insertions, deletions and substitutions divided by the number of reference tokens, over all the utterances of the reference, after the mapping and, with --no-repeat, the merging of repetitions; it is 0 exactly when the sequences are the same. The TIMIT script score.py gives the same rate and refuses files with different utterances.", "quantifier": "all files, mappings and options", "why_tests_cant": "a rate is a plausible number whatever was left out of it", "anchors": ["recipes/aud/utils/ter.py:main", "recipes/aud/utils/ter.py:map_trans", "recipes/aud/utils/ter.py:load_transcript", "recipes/timit_v2/utils/score.py:filter_text", "recipes/timit_v2/utils/score.py:main"]}
{"id": "C112", "title": "The mapping of units to phones is the best one", "statement": "maxoverlap_mapping.py maps every proposed unit to a phone it shares the most frames with, so that no other mapping of the units agrees with the reference on more frames; the counts are the numbers of shared frames.", "quantifier": "all alignments; all mappings", "why_tests_cant": "optimality over all mappings cannot be enumerated", "anchors": ["recipes/aud/utils/maxoverlap_mapping.py:main"]}
{"id": "C113", "title": "Mapping a transcription", "statement": "maptrans.py replaces every token by its image, unknown ones by --unk, or raises if there is none; applied with the file of maxoverlap_mapping.py to the same alignments it never meets an unknown unit and gives the alignments that agree the most with the reference.", "quantifier": "all files", "why_tests_cant": "composition of three scripts through files", "anchors": ["recipes/aud/utils/maptrans.py:map_trans", "recipes/aud/utils/maptrans.py:load_mapping", "recipes/aud/utils/maxoverlap_mapping.py:main"]}
{"id": "C114", "title": "Normalised mutual information of units and phones", "statement": "nmi.py applied to the counts written by maxoverlap_mapping.py prints, up to its smoothing constant, 100*I/H(phones) (--old) or 100*I/((H(units)+H(phones))/2), with I the mutual information of the table of counts: between 0 and 100, 0 exactly when unit and phone are independent, 100 exactly when the unit determines the phone (and, without --old, the phone the unit).", "quantifier": "all tables of positive counts with at least two phones (or units, without --old)", "why_tests_cant": "a statement about all tables and about real-valued logarithms; equality cases", "anchors": ["recipes/aud/utils/nmi.py:main", "recipes/hshmm/utils/nmi.py:main", "recipes/aud/utils/maxoverlap_mapping.py:main"]}
{"id": "C115", "title": "Entropy and perplexity of a transcription", "statement": "entropy_rate.py prints the entropy of the token frequencies of the transcription without repetitions and its exponential: the entropy is between 0 (one token type) and log2 of the number of types (all equally frequent), the perplexity between 1 and the number of types; no token at all gives 0 and 1; an empty line raises.", "quantifier": "all transcription files", "why_tests_cant": "inequalities over all files with their equality cases", "anchors": ["recipes/aud/utils/entropy_rate.py:main", "recipes/aud/utils/entropy_rate.py:load_transcript"]}
{"id": "C116", "title": "Mutual information of two alignments", "statement": "compare-alignments.py counts, for the utterances that both archives have, the pairs of symbols of the frames, after merging the reference symbols by the groups; mutual-information.py prints for these tables the mutual information in bits, never negative, and the percentage of the reference entropy it represents, between 0 and 100 (100 exactly when the hypothesis determines the reference).", "quantifier": "all alignments, mappings and groups; smoothing constant 0 or tending to 0", "why_tests_cant": "two scripts composed through a pickle; inequalities over all tables", "anchors": ["recipes/timit_v2/utils/compare-alignments.py:main", "recipes/timit_v2/utils/mutual-information.py:main"]}
{"id": "C117", "title": "Central frames of an alignment", "statement": "features-extract-central-frame.py keeps, for every token of an alignment (maximal run of frames with the same phone), in order, the features of one frame of that token, its central one, with the number of its phone.", "quantifier": "all alignments, mappings and features", "why_tests_cant": "off-by-one behaviour depends on the position and length of the tokens", "anchors": ["recipes/timit_v2/utils/features-extract-central-frame.py:get_cf", "recipes/timit_v2/utils/features-extract-central-frame.py:run"]}
{"id": "C118", "title": "Global statistics of the features", "statement": "features-stats.py gives the mean, the variance and the number of frames over all the frames of the archive: the variance is the mean squared deviation, never negative, zero exactly for a constant coordinate; cutting the frames into other utterances or ordering them otherwise changes nothing; archives mixing dimensions are refused.", "quantifier": "all archives with at least one frame, exact arithmetic", "why_tests_cant": "an invariance over all ways of cutting an archive", "anchors": ["recipes/timit_v2/utils/features-stats.py:accumulate"]}
{"id": "C119", "title": "Phonetic transcriptions and frame labels", "statement": "prepare_phone_trans.py prints for every utterance whose words are all in the lexicon, in order, the phones of its words (last pronunciation listed), between silences with --add-sil, and skips the others; convert_align.py gives every frame of consecutive segments the label of its segment.", "quantifier": "all lexicons, texts, segmentations", "why_tests_cant": "all files; order, duplicates and skipping interact", "anchors": ["recipes/aud/utils/prepare_phone_trans.py:main", "recipes/aud/utils/convert_align.py:run"]}
{"id": "C120", "title": "Units of a state alignment", "statement": "pdf2unit.py --phone-level and convert_states_to_phone.py recover from a state alignment the sequence of units it goes through, whatever the durations; an empty alignment or an unknown pdf is refused.", "quantifier": "all inventories, sequences of units and durations", "why_tests_cant": "a round trip over all sequences and durations", "anchors": ["recipes/timit_v2/utils/pdf2unit.py:read_mapping", "recipes/timit_v2/utils/pdf2unit.py:convert_state_to_phone", "recipes/timit_v2/utils/convert_states_to_phone.py:convert_state_to_phone", "recipes/timit_v2/utils/convert_states_to_phone.py:main"]}
{"id": "C121", "title": "Probabilistic output layers", "statement": "The likelihood of the normal layers is the logarithm of the density of the law of the samples they draw (diagonal, isotropic and identity covariance), and sampling with use_mean gives the mode; the Bernoulli layer gives the log-probability of the data.", "quantifier": "all dimensions, means and positive variances; all noise", "why_tests_cant": "equality of a formula and the law of a sampler", "anchors": ["beer/nnet/problayers.py:NormalDiagonalCovarianceLayer", "beer/nnet/problayers.py:NormalIsotropicCovarianceLayer", "beer/nnet/problayers.py:NormalIdentityCovarianceLayer", "beer/nnet/problayers.py:BernoulliLayer"]}
{"id": "C122", "title": "Networks from a configuration", "statement": "neuralnetwork.create gives a block for every block of the configuration, an element for every text; parse_nnet_element reads back any element written in the documented form name:arg1=val1,arg2=val2 whatever the white space; texts separated by | are created in order and merged; unknown names and malformed arguments are refused with ValueError.", "quantifier": "all names, arguments and white space; all configurations", "why_tests_cant": "a round trip over all texts", "anchors": ["beer/nnet/neuralnetwork.py:parse_nnet_element", "beer/nnet/neuralnetwork.py:create_nnet_element", "beer/nnet/neuralnetwork.py:create_nnet_block", "beer/nnet/neuralnetwork.py:create"]}
{"id": "C123", "title": "What a network computes", "statement": "A network composes its blocks in order; a block composes its elements and adds its residual connection applied to the input of the block; a merged element sums the outputs of all its transforms and leaves its inputs alone; a residual feed-forward network keeps the dimension and moves every coordinate by less than its number of blocks.", "quantifier": "all networks, layers and inputs", "why_tests_cant": "all sequences of layers; aliasing and silent truncation are not visible in shapes", "anchors": ["beer/nnet/neuralnetwork.py:MergeTransform", "beer/nnet/neuralnetwork.py:NeuralNetworkBlock", "beer/nnet/residual.py:ResidualFeedForwardNet"]}
{"id": "C124", "title": "Elements of a set of distributions", "statement": "dist[key] is the distribution (or set) at these positions of the set: it is refused out of range, iterating over a set gives its elements and ends, elements of elements compose, and an element stays the element of the current set when the set, or the element, is updated.", "quantifier": "all keys, all sequences of operations", "why_tests_cant": "aliasing along arbitrary sequences of updates", "anchors": ["beer/dists/basedist.py:ParametersView", "beer/dists/basedist.py:ExponentialFamily.__getitem__", "beer/dists/normalgamma.py:NormalGamma.update_from_natural_parameters"]}
{"id": "C125", "title": "Elements of Bayesian parameters; observers and identity", "statement": "param[key] is a parameter of its own with the selected prior, posterior and statistics: changing it does not change the set and conversely; every registered observer is called exactly once by an update, before or after it as asked; two parameters are equal exactly when they have the same identifier.", "quantifier": "all keys and sequences of changes, all registrations", "why_tests_cant": "independence along all sequences; hash collisions", "anchors": ["beer/models/parameters.py:ConjugateBayesianParameter.__getitem__", "beer/models/parameters.py:BayesianParameter.dispatch", "beer/models/parameters.py:BayesianParameter.register_callback", "beer/models/parameters.py:BayesianParameter.__eq__"]}
{"id": "C126", "title": "Elements of the parameters of subspace models", "statement": "An element of a subspace parameter shares the statistics and pdf-vectors of the parameter: what is assigned through it is read back from the parameter at these positions and nowhere else, resetting its statistics resets them in the parameter, its natural form is its pdf-vectors, elements of elements compose.", "quantifier": "all parameters, keys and values", "why_tests_cant": "sharing of memory depends on the kind of key", "anchors": ["beer/models/gsm.py:SubspaceBayesianParameterView"]}
{"id": "C127", "title": "Models created by a subspace model", "statement": "The models new_models creates are different models: put in one set, each gets its own statistics.", "quantifier": "all numbers of models and statistics", "why_tests_cant": "needs a property of identity under copies", "anchors": ["beer/models/gsm.py:GSM.new_models", "beer/models/modelset.py:JointModelSet.accumulate"]}
{"id": "C128", "title": "Short term spectrum", "statement": "short_term_mspec gives one row for each window that fits in the signal and one column for each frequency below half the sampling rate; a row depends only on its own samples and on the mean; adding a constant to the signal changes nothing, scaling it scales the magnitudes, and a constant signal has spectrum zero.", "quantifier": "all signals, window lengths, frame rates and pre-emphasis factors", "why_tests_cant": "needs a proof about the discrete Fourier transform for all signals, tests compare some values", "anchors": ["beer/features.py:short_term_mspec"]}
{"id": "C129", "title": "Filter bank", "statement": "create_fbank gives the asked number of triangular filters with height one at consecutive mel-spaced centres of the sampling rate: they are not negative and sum to one between the first and the last centre; the settings for which two centres coincide are refused.", "quantifier": "all numbers of filters, FFT lengths, sampling rates and cut-off frequencies", "why_tests_cant": "needs a proof about rounded logarithmic scales for all settings", "anchors": ["beer/features.py:create_fbank", "beer/features.py:__triangle", "beer/cli/subcommands/features/extract.py:main"]}
{"id": "C130", "title": "Cepstrum", "statement": "The cosine transform of the extraction is orthonormal before the liftering: a gain does not change the coefficients, the log-spectrum is recovered from the energy and one coefficient less than there are filters, and the coefficient beyond is always zero.", "quantifier": "all log-spectra, numbers of filters and liftering constants", "why_tests_cant": "needs trigonometric sums for all sizes", "anchors": ["beer/cli/subcommands/features/extract.py:compute_dct_bases", "beer/cli/subcommands/features/extract.py:main"]}
{"id": "C131", "title": "Features of a signal", "statement": "The extraction gives for each frame (coefficients + energy) * (1 + order of the deltas) features whatever the steps configured; an offset of the signal changes nothing; with the mean normalisation each feature has mean zero and a constant channel is removed; unknown settings are refused.", "quantifier": "all signals and configurations", "why_tests_cant": "needs a proof for all configurations and signals", "anchors": ["beer/cli/subcommands/features/extract.py:main"]}
{"id": "C132", "title": "From extracted features to the data set", "statement": "After features extract, features archive and dataset create, the data set gives for each utterance the features extracted for it, whatever the order of the files, and refuses other identifiers.", "quantifier": "all lists of utterances, all contents of the directory and orders of the archive", "why_tests_cant": "depends on names of files for all identifiers", "anchors": ["beer/cli/subcommands/features/extract.py:main", "beer/cli/subcommands/features/archive.py:main", "beer/cli/dataset.py:Dataset.__getitem__"]}
{"id": "C133", "title": "Iteration over a data set", "statement": "Iterating over a data set gives every utterance exactly once with its features and then ends; in the order of the identifiers, or in the drawn order with random_order.", "quantifier": "all archives and drawn orders", "why_tests_cant": "needs an induction over the iteration for all data sets", "anchors": ["beer/cli/dataset.py:UtteranceIterator.__next__", "beer/cli/dataset.py:Dataset.utterances"]}
{"id": "C134", "title": "Initial phone loop", "statement": "hmm mkphoneloop gives a phone loop whose class fits the prior asked for, with the concentration asked for; before any training the probability of entering each unit is the one of the prior, and the units share all of it.", "quantifier": "all numbers of units, concentrations, graphs and choices of prior", "why_tests_cant": "needs digamma identities for all sizes", "anchors": ["beer/cli/subcommands/hmm/mkphoneloop.py:main", "beer/models/phoneloop.py:PhoneLoop._on_weights_update"]}
{"id": "C135", "title": "Bigram phone loop made from a unigram phone loop", "statement": "hmm mkphoneloopbigram gives a bigram phone loop with the transitions of the unigram phone loop; its prior is proper; training gives the counts of a context to this context only, and a context never seen keeps the unigram weights.", "quantifier": "all phone loops, orders of the units, numbers of updates and counts", "why_tests_cant": "needs an induction over the updates, for all posteriors", "anchors": ["beer/cli/subcommands/hmm/mkphoneloopbigram.py:main", "beer/models/categoricalset.py:SBCategoricalSet._transform_stats", "beer/models/categoricalset.py:_default_set_sb_param"]}
{"id": "C136", "title": "Prior of a subspace model taken from another one", "statement": "shmm setprior gives the subspace the prior centred on the posterior of the other model with the variance asked for, a posterior equal to this prior, the latent posteriors of the other model for the first units and drawn ones for the rest, and writes into the units what these posteriors mean.", "quantifier": "all subspace models, numbers of units, variances and draws", "why_tests_cant": "depends on all the draws and all the sizes of both models", "anchors": ["beer/cli/subcommands/shmm/setprior.py:main", "beer/cli/subcommands/shmm/init.py:main", "beer/models/gsm.py:GSM.update_models"]}
{"id": "C137", "title": "Initialisation of a language from a multilingual model", "statement": "hshmm init gives the units of the language the vectors that the subspace of the source language assigns to them under the root of the multilingual model, saves this root and the adapted language model, and leaves the other languages alone; the units it writes are those that training uses.", "quantifier": "all sets of languages, options and phone-loops", "why_tests_cant": "needs all the combinations of options and of files", "anchors": ["beer/cli/subcommands/hshmm/init.py:main", "beer/cli/subcommands/hshmm/train.py:main"]}
{"id": "C138", "title": "Languages keep their own posteriors and units", "statement": "In training a hierarchical subspace model every language is trained with its own latent posteriors and the units of its own phone-loop.", "quantifier": "all files of languages, in any order", "why_tests_cant": "needs an induction over the languages and the commands that make the files", "anchors": ["beer/cli/subcommands/hshmm/train.py:main", "beer/cli/subcommands/hshmm/mksphoneloop.py:main", "beer/models/gsm.py:HierarchicalGSM.expected_log_likelihood"]}
{"id": "C139", "title": "Options of the training of subspace models", "statement": "In shmm train and hshmm train every epoch moves the parameters by the step of the optimizer for the gradient of that epoch, clipped to the norm asked for; blocks that the options freeze keep their values; training, saving the state of the optimizer and training on gives what one run gives, with the rates asked for.", "quantifier": "all models, options, numbers of epochs and saved states", "why_tests_cant": "needs an induction over the epochs and all the combinations of options", "anchors": ["beer/cli/subcommands/hshmm/train.py:main", "beer/cli/subcommands/shmm/train.py:main", "beer/inference/optimizers.py:VBOptimizer"]}
{"id": "C140", "title": "Frame labels of TIMIT alignments", "statement": "read_timit_labels turns segments in samples into one label per frame: there are as many labels as frames fit in the file, and every frame has the label of the segment it belongs to; files that cannot be read are refused.", "quantifier": "all frame rates, sampling rates and files", "why_tests_cant": "needs an argument over all segmentations with rounding", "anchors": ["recipes/aud/local/timit/phone_ali.py:read_timit_labels"]}
{"id": "C141", "title": "TIMIT phone sets", "statement": "Normalising a TIMIT transcription replaces every phone by its class of the 48 or 39 phone set, drops the phones without a class and nothing else; the language files list the phones of the sets once each with consecutive numbers, silence first, and agree with the map and with the transcriptions.", "quantifier": "all phone maps and transcriptions", "why_tests_cant": "the files come from any map; agreement of two scripts over all maps is not a finite check", "anchors": ["recipes/timit_v2/local/timit-norm-trans.py:main", "recipes/timit_v2/local/timit_lang_prep.py:main", "recipes/aud/local/timit/timit_lang_prep.py:main"]}
{"id": "C142", "title": "Stacked features", "statement": "Stacking features with a context of c frames gives, for every frame, the frames from c before to c after, in order, with the edges repeated; the number of frames stays, the dimension is 2c+1 times as large, and the features can be recovered.", "quantifier": "all features and contexts", "why_tests_cant": "all sizes and contexts", "anchors": ["recipes/timit_v2/utils/features-stack-parallel.py:main"]}
{"id": "C143", "title": "Numbers of phones, states and speakers", "statement": "Transcriptions in numbers can be turned back into phones; the state labels of a phone are the labels of that phone, so that the phone can be recovered from a state; the speaker labels are the same for two utterances exactly if they have the same speaker, in every run.", "quantifier": "all phone lists, transcriptions, alignments, numbers of states and speakers", "why_tests_cant": "all lists and all orders in which Python lists a set", "anchors": ["recipes/timit_v2/utils/prepare_trans.py:main", "recipes/timit_v2/utils/prepare_state_labels.py:main", "recipes/timit_v2/utils/prepare-spk-labels.py:main"]}
{"id": "C144", "title": "Decoding graphs as text", "statement": "The text written by create-decode-graph accepts all the sequences of phones (with silence: those that begin and end with silence); phones are weighted by the language model, or equally without one; prepare-decode-graph makes the normalised graph of a text, whatever the order of its arcs.", "quantifier": "all phone lists, weights, texts and orders of the arcs", "why_tests_cant": "the language of a graph is infinite; the order of a set is not fixed by the language", "anchors": ["recipes/timit_v2/utils/create-decode-graph.py:main", "recipes/timit_v2/utils/prepare-decode-graph.py:main"]}
{"id": "C145", "title": "Phone transcriptions from a lexicon", "statement": "Every phone of the lexicon gets its own id; every utterance of the text is written as the ids of the phones of its words between two silences; words that are not in the lexicon are written with the id of the unknown word.", "quantifier": "all lexicons, texts, languages and options", "why_tests_cant": "all lexicons and texts", "anchors": ["recipes/aud/local/alffa/prepare_transcripts.py:main"]}
{"id": "C146", "title": "Phone transcriptions from letters", "statement": "A word is cut into letters with their diacritics, none lost; two groups of letters have the same id exactly if they have the same letters; every utterance is written in order as the ids of its letters, with one silence for words in brackets and at the ends when asked for, and never two silences in a row.", "quantifier": "all texts, classes of characters, languages and options", "why_tests_cant": "all strings and classes of characters", "anchors": ["recipes/aud/local/google_lr/prepare_transcripts.py:main"]}
{"id": "C147", "title": "Prefixes and names of units", "statement": "Adding a language prefix changes every token but the excluded ones, keeps the order and the utterance, and keeps different transcriptions different; the list of acoustic units has as many speech units as asked for, with different names, and the non-speech unit if asked for.", "quantifier": "all transcriptions, prefixes, exclusions and numbers of units", "why_tests_cant": "injectivity over all strings", "anchors": ["recipes/aud/utils/add_prefix.py:main", "recipes/aud/utils/prepare_lang_aud.py:main"]}
{"id": "C148", "title": "Caches do not leak between evaluations", "statement": "clear_cache empties the caches of the model and of all the models it holds; what a phone loop accumulates for an utterance does not depend on the utterances evaluated before.", "quantifier": "all module trees, utterances and sequences of calls", "why_tests_cant": "depends on the whole history of calls", "anchors": ["beer/models/basemodel.py:Model.clear_cache", "beer/inference/objectives.py:evidence_lower_bound", "beer/models/phoneloop.py:PhoneLoop.accumulate", "beer/models/hmm.py:HMM.accumulate"]}
{"id": "C149", "title": "Mixtures over a set of subspace models", "statement": "The objective of a mixture over a GSMSet is, per unit, the log of the weighted sum over the classes (or the value of the class of its label) minus the divergence of every parameter once; every unit gets the pdf-vectors averaged with its class probabilities (or of its class); a step gives the priors and the weights the statistics of the units and of the class means.", "quantifier": "all models, units, classes, draws, labels, data sizes and step counts", "why_tests_cant": "the values are sampled; the statement is about the formula, for all draws", "anchors": ["beer/models/gsm.py:GSMSet", "beer/models/mixture.py:Mixture.expected_log_likelihood", "beer/cli/subcommands/shmm/train.py:main"]}
{"id": "C150", "title": "Mixtures trained with labels", "statement": "With labels every frame belongs to the class of its label; a step moves the concentration of a class to its prior plus the scaled number of its labels and trains each component on its own frames; the reported objective never decreases.", "quantifier": "all mixtures, data, labels, data sizes and learning rates in (0, 1]", "why_tests_cant": "monotonicity over all states and data", "anchors": ["beer/models/mixture.py:Mixture.expected_log_likelihood", "beer/models/mixture.py:Mixture.accumulate", "beer/utils.py:onehot"]}
{"id": "C151", "title": "Compiling a graph keeps its paths", "statement": "The pdf sequences of the state sequences which have a non-zero probability in the compiled graph are exactly the non-empty pdf sequences along the paths of the graph from its start to its end.", "quantifier": "all normalised graphs with positive weights, all sequences", "why_tests_cant": "infinitely many paths, loops through silent states", "anchors": ["beer/graph.py:Graph.compile", "beer/graph.py:Graph.find_next_pdf_ids", "beer/graph.py:Graph.find_previous_pdf_ids"]}
{"id": "C152", "title": "Alignment and decoding graphs allow exactly their transcriptions", "statement": "With the compiled alignment graph of a transcription the possible pdf sequences are exactly those made of one pass through the HMM of each unit in order; with the compiled decoding graph they are exactly those made of passes through the HMMs of a unit sequence allowed by the phone loop.", "quantifier": "all unit inventories, topologies, transcriptions, start/end groups and sequences of any length", "why_tests_cant": "infinitely many paths; tests can only try some transcriptions", "anchors": ["beer/cli/subcommands/hmm/mkaligraph.py:create_graph_from_seq", "beer/cli/subcommands/hmm/mkdecodegraph.py:main", "beer/cli/subcommands/hmm/mkphoneloopgraph.py:main", "beer/graph.py:Graph.compile", "beer/graph.py:Graph.replace_state"]}
{"id": "C153", "title": "Decoding follows the graph whatever the features", "statement": "Decoding an utterance with the alignment graph of its transcription prints the transcription, with one label per frame in per-frame mode, and decoding with the phone-loop graph prints a unit sequence allowed by the loop, for any model, features, acoustic scale and ties.", "quantifier": "all inventories of units whose topology never leads back to its first emitting state (all those of the recipes), transcriptions, numbers of frames, log-likelihoods and scales", "why_tests_cant": "depends on every value of the features; tests can only try some", "anchors": ["beer/models/hmm.py:HMM.decode", "beer/graph.py:CompiledGraph.best_path", "beer/cli/subcommands/hmm/decode.py:state2phone", "beer/cli/subcommands/hmm/mkaligraph.py:create_graph_from_seq", "beer/cli/subcommands/hmm/mkdecodegraph.py:main"]}
{"id": "C154", "title": "The decode command prints one line per utterance", "statement": "The command prints one line for each requested utterance of the data set in the requested order, decoded with its alignment graph when there is one and with the graph of the model otherwise; utterances which are not in the data set are skipped. The alignment command writes for each utterance the graph of its last transcription.", "quantifier": "all lists of utterances, data sets, archives of graphs and transcriptions", "why_tests_cant": "arbitrary combinations of missing utterances, graphs and lines", "anchors": ["beer/cli/subcommands/hmm/decode.py:main", "beer/cli/subcommands/hmm/mkaligraph.py:main", "beer/models/hmm.py:HMM.decode"]}
{"id": "C155", "title": "The posteriors command saves the posteriors of the scaled model", "statement": "hmm posteriors saves one file per requested utterance of the data set; with --state it holds for each frame and state the posterior probability under the log-likelihoods multiplied by the acoustic scale, without it the posteriors of the units, which are those of all their states, and with --log the logarithms of these.", "quantifier": "all models of Normals or mixtures, graphs, utterances, scales and options", "why_tests_cant": "depends on all the values of the statistics and on the kind of emissions", "anchors": ["beer/cli/subcommands/hmm/posteriors.py:main", "beer/cli/subcommands/hmm/posteriors.py:state2phone", "beer/models/hmm.py:HMM.posteriors", "beer/models/mixtureset.py:MixtureSet.expected_log_likelihood", "beer/models/normalset.py:NormalSet.expected_log_likelihood"]}
{"id": "C156", "title": "Training the weights of a phone loop does not change which sequences are possible", "statement": "However often the weights of a unigram or bigram phone loop are updated, the state sequences of non-zero probability are those of the decoding graph it was made from, so that decoding with the trained phone loop prints allowed sequences of units.", "quantifier": "all inventories of units whose topology never leads back to its first emitting state, phone-loop graphs with or without start/end group, and histories of updates", "why_tests_cant": "depends on all the histories of weights and on the whole compiled graph", "anchors": ["beer/models/phoneloop.py:PhoneLoop.__init__", "beer/models/phoneloop.py:PhoneLoop._on_weights_update", "beer/models/phoneloop.py:BigramPhoneLoop._on_weights_update", "beer/cli/subcommands/hmm/mkdecodegraph.py:main"]}
{"id": "C157", "title": "Variational training of a phone loop never decreases the evidence lower bound", "statement": "Training a phone loop - emissions and weights of the units, with or without alignments of the utterances, with any learning rates in (0, 1] - runs without exception on utterances with a path in the graph, keeps the decoding graph that of the current weights, and never decreases the log-probabilities of the utterances minus the divergence of the parameters to their priors.", "quantifier": "all sets of emissions, graphs whose units begin and end in different states, weights, utterances and learning rates", "why_tests_cant": "depends on sums over all the state sequences and on all the values of the parameters", "anchors": ["beer/models/phoneloop.py:PhoneLoop.accumulate", "beer/models/phoneloop.py:PhoneLoop._on_weights_update", "beer/models/phoneloop.py:PhoneLoop.mean_field_factorization", "beer/models/hmm.py:HMM.expected_log_likelihood", "beer/models/parameters.py:ConjugateBayesianParameter.natural_grad_update"]}
{"id": "C158", "title": "Training stick-breaking weights never decreases the evidence lower bound", "statement": "Variational training of stick-breaking weights, alone or as the weights of a mixture, with any learning rates in (0, 1], runs without exception on a batch which is not empty, keeps the sticks valid and never decreases the evidence lower bound of the batch, although each step re-orders the categories by their counts; with learning rate one no other sticks and no other order of the categories give a higher bound for the same counts.", "quantifier": "all numbers of categories, valid sticks and orders, batches, sets of components and learning rates", "why_tests_cant": "depends on the divergences of all the sticks for all their values and on all the orders of the categories", "anchors": ["beer/models/categorical.py:SBCategorical._transform_stats", "beer/models/categorical.py:SBCategorical.expected_log_likelihood", "beer/models/categorical.py:SBCategorical.accumulate", "beer/models/mixture.py:Mixture.expected_log_likelihood", "beer/models/parameters.py:ConjugateBayesianParameter.natural_grad_update", "beer/inference/objectives.py:evidence_lower_bound"]}
{"id": "C159", "title": "Training stick-breaking weights with a hyper-prior reports an evidence lower bound which never decreases", "statement": "Variational training of stick-breaking weights with a hyper-prior over the concentration, with learning rate one, never decreases the evidence lower bound of the joint model of the sticks and the concentration, and evidence_lower_bound returns this bound.", "quantifier": "all numbers of categories, strengths, valid states, batches and numbers of steps", "why_tests_cant": "depends on the divergences of the sticks and of the concentration for all their values", "anchors": ["beer/models/categorical.py:SBCategoricalHyperPrior._on_stickbreaking_update", "beer/models/categorical.py:SBCategoricalHyperPrior._on_concentration_update", "beer/models/categorical.py:SBCategoricalHyperPrior.create", "beer/models/categorical.py:SBCategorical.mean_field_factorization", "beer/models/basemodel.py:Model.kl_div_posterior_prior"]}
{"id": "C160", "title": "Training a bigram phone loop never decreases the objective", "statement": "Variational training of a bigram phone loop with its phonotactic weights (a set of stick-breaking processes or of Dirichlet distributions), with any learning rates in (0, 1], runs without exception on utterances with or without alignments, keeps the decoding graph the one of the current weights and the same utterances possible, and never decreases the objective: the log-probabilities of the utterances under the decoding graph minus the divergences of the weights and of the emissions.", "quantifier": "all numbers of units and states, decoding graphs, emissions, utterances, valid weights, acoustic scales and numbers of steps", "why_tests_cant": "depends on all the sequences of states of all the decoding graphs and on the divergences of the weights for all their values", "anchors": ["beer/models/phoneloop.py:BigramPhoneLoop._on_weights_update", "beer/models/phoneloop.py:BigramPhoneLoop.accumulate", "beer/models/phoneloop.py:BigramPhoneLoop.__init__", "beer/models/categoricalset.py:CategoricalSet.expected_log_likelihood", "beer/models/categoricalset.py:SBCategoricalSet.accumulate_from_jointresps", "beer/models/hmm.py:HMM.expected_log_likelihood"]}
{"id": "C161", "title": "Training a phone loop with stick-breaking weights never decreases the objective", "statement": "Variational training of a phone loop with stick-breaking weights, with or without a hyper-prior over the concentration, with learning rate one, runs without exception, keeps the decoding graph the one of the current weights and the same utterances possible, never decreases the objective, and leaves the weights as they are when all the utterances have alignments.", "quantifier": "all numbers of units and states, decoding graphs, emissions, utterances, valid weights, acoustic scales and numbers of steps", "why_tests_cant": "depends on all the sequences of states of all the decoding graphs and on the divergences of the sticks for all their values", "anchors": ["beer/models/phoneloop.py:PhoneLoop._on_weights_update", "beer/models/phoneloop.py:PhoneLoop.accumulate", "beer/models/phoneloop.py:PhoneLoop.__init__", "beer/models/categorical.py:SBCategorical._transform_stats", "beer/models/categorical.py:SBCategoricalHyperPrior._on_stickbreaking_update", "beer/models/hmm.py:HMM.expected_log_likelihood"]}
{"id": "C162", "title": "The boundary scores are those of a one-to-one matching and do not depend on the names of the units", "statement": "score_boundaries.py prints the recall, precision and f-score of one-to-one matchings, within the tolerance, of the boundaries of each utterance; all are between 0 and 100, equal boundaries score 100 and without tolerance only they do. The names of the units do not matter. With --mapping the units are replaced by their images and different unknown units stay different. Missing or empty utterances, and reference utterances without boundary against a hypothesis with some, raise an exception.", "quantifier": "all reference and hypothesis transcriptions, mappings and tolerances", "why_tests_cant": "the matching and the renaming of unknown units depend on all the utterances together; tests compare a few pairs of sequences", "anchors": ["recipes/aud/utils/score_boundaries.py:main", "recipes/aud/utils/score_boundaries.py:map_trans", "recipes/aud/utils/score_boundaries.py:load_mapping", "recipes/aud/utils/score_boundaries.py:load_transcript", "recipes/aud/utils/score_boundaries.py:get_hits", "recipes/aud/utils/score_boundaries.py:boundaries"]}
{"id": "C163", "title": "fbank computes the log filter bank features of every frame that fits in the signal", "statement": "fbank(signal, flen, frate, hifreq, lowfreq, nfilters, preemph, srate) returns one row for every frame of flen seconds, every frate seconds, that fits in the signal, and one column for every filter: the logarithm of one plus the weighted sum of the magnitudes of the pre-emphasised and windowed frame, the weights being those of the triangular filters for the sampling rate srate. A row depends only on its frame and the sample before it; a delay of one step moves the rows by one; a gain c >= 1 adds at most log c; silence gives zeros. Empty signals, empty frames, a zero step and filters with equal centres raise an exception.", "quantifier": "all signals, frame lengths and steps, numbers and limits of filters, pre-emphasis and gains", "why_tests_cant": "the value of every frame and filter for all signals of all lengths; tests look at the shape of the result for one file at 16 kHz", "anchors": ["beer/features.py:fbank", "beer/features.py:create_fbank"]}
{"id": "C164", "title": "A Gamma model has the requested mean and can be trained", "statement": "Gamma.create(mean, shape, prior_strength) returns a model whose mean is mean and whose prior and posterior are valid and equal; different sizes and zeros are refused. Its evidence lower bound can be computed for all data, and a step of training adds the data to the rate and the number of data times the shape to the shape of the posterior.", "quantifier": "all means, shapes, strengths, data sets and learning rates", "why_tests_cant": "the posterior after training is a function of all the data; no test trains a Gamma model", "anchors": ["beer/models/gamma.py:Gamma.create", "beer/models/gamma.py:Gamma.mean", "beer/models/gamma.py:Gamma.expected_log_likelihood", "beer/models/gamma.py:Gamma.accumulate", "beer/models/gamma.py:_default_param"]}
{"id": "C165", "title": "jacobians returns the Jacobian matrices and approximate_hessian their product", "statement": "jacobians(outputs, inputs) returns for every input the matrix whose row i is the gradient of output i with respect to that input, zero when it does not depend on it. approximate_hessian(list_grads) gives, for every matrix J, the product J^T J: symmetric, positive semi-definite, the sum of the outer products of the rows, whatever their order.", "quantifier": "all numbers of inputs and outputs of all sizes, and all gradients", "why_tests_cant": "the equality of every row with a gradient for all functions; no test covers these two functions", "anchors": ["beer/utils.py:jacobians", "beer/utils.py:approximate_hessian"]}
{"id": "C166", "title": "evidence_lower_bound of a mixture is a lower bound of the log-evidence, and training converges", "statement": "Read a model as a way to generate data: the weights are drawn from the Dirichlet prior, the means and precisions from their Normal-Gamma or Normal-Wishart priors, then every data point from its component. evidence_lower_bound of a mixture on all its data is never more than the logarithm of the probability density of the data (an integral over all the parameters), whatever the posteriors. The objective increased by the training of an HMM is a lower bound in the same sense, the sum running over all the state sequences. Along any training with learning rates in (0, 1] these values increase to a finite limit. For a single model a step of learning rate one reaches the log-evidence itself.", "quantifier": "sets of Normal models with diagonal, isotropic or full covariance and of categorical models (one-hot data), sets of mixtures of them, shared and joined sets, all valid priors and posteriors, all data, all infinite sequences of learning rates", "why_tests_cant": "the evidence is an integral over all the parameters, and the limit concerns infinitely many steps; tests can compute neither", "anchors": ["beer/inference/objectives.py:evidence_lower_bound", "beer/models/mixture.py:Mixture.expected_log_likelihood", "beer/models/mixtureset.py:MixtureSet.expected_log_likelihood", "beer/models/hmm.py:HMM.expected_log_likelihood", "beer/models/parameters.py:ConjugateBayesianParameter.natural_grad_update"]}
{"id": "C167", "title": "The units of the features do not matter", "statement": "If the features are expressed in other units, a training started from the same models expressed in these units gives the same models expressed in these units. Diagonal covariance: every coordinate can be multiplied by its own non-zero factor and shifted. Isotropic covariance: rotations, reflections, a gain and a shift. Full covariance: every invertible affine map. The responsibilities, the state posteriors, the best paths, the weights of the mixtures and the transitions and weights of the units of a phone loop are the same. All the log-likelihoods move by the same constant (minus the logarithm of the Jacobian of the change) and the objectives by this constant times the size of the data set. The mean and variance of a data set and the models created from them (positive gains, same random numbers) follow too, so the whole chain from the features to the trained mixture does.", "quantifier": "sets of Normal models, sets of mixtures of them, shared and joined sets, mixtures, HMMs and phone loops; all valid parameters, all data, all learning rates in (0, 1], any number of steps", "why_tests_cant": "a statement about all changes of units and all trainings; a test compares a few numbers up to rounding", "anchors": ["beer/dists/normalgamma.py:NormalGamma.natural_parameters", "beer/dists/isonormalgamma.py:IsotropicNormalGamma.natural_parameters", "beer/dists/normalwishart.py:NormalWishart.natural_parameters", "beer/models/normalset.py:NormalSet.create", "beer/models/mixture.py:Mixture.expected_log_likelihood", "beer/models/hmm.py:HMM.expected_log_likelihood", "beer/models/phoneloop.py:PhoneLoop.accumulate", "beer/graph.py:CompiledGraph.best_path", "beer/cli/subcommands/dataset/create.py:accumulate"]}
{"id": "C168", "title": "The order in which components, pdfs and states are numbered does not matter", "statement": "Training the same model with its components numbered in another order gives the same components in that order, with the responsibilities in that order and the same objective. This holds for the components of a mixture (the code treats the last weight apart: it is a sum in the statistics and missing from the natural parameters), for the mixtures of a set and the components of each of them, for the states of an HMM together with its graph, and for the pdfs and the units of a phone loop.", "quantifier": "all permutations; sets of models of any conjugate family, mixtures, sets of mixtures, HMMs, phone loops with and without alignments; all valid parameters, all data, all learning rates in (0, 1], any number of steps", "why_tests_cant": "a statement about all permutations and all trainings", "anchors": ["beer/dists/dirichlet.py:Dirichlet.natural_parameters", "beer/dists/dirichlet.py:Dirichlet.expected_sufficient_statistics", "beer/models/mixture.py:Mixture.accumulate", "beer/models/mixtureset.py:MixtureSet.accumulate", "beer/models/modelset.py:DynamicallyOrderedModelSet.accumulate", "beer/models/hmm.py:HMM.accumulate", "beer/models/phoneloop.py:PhoneLoop.accumulate"]}
{"id": "C169", "title": "A trained Normal model is the compromise of its prior and of the data, and forgets the prior", "statement": "After Normal.create(mean, cov, strength, cov_type) and a step of learning rate one on the data, whatever was trained before, model.mean is the mean of strength observations at the requested mean together with the data, and model.cov is the weighted mean of the requested covariance, of the covariance of the data and of the scatter between the requested mean and the data. The data count for datasize observations. As datasize grows, model.mean tends to the mean of the data and model.cov to their covariance (its diagonal, or its average variance, for the other types), whatever the prior. Without data the step raises.", "quantifier": "all requested means, covariances and strengths, all posteriors before the step, all data, all sizes of data sets, the three types of covariance", "why_tests_cant": "the formulas hold for all data and priors, and the limit concerns infinitely many sizes; tests fit a few examples", "anchors": ["beer/models/normal.py:Normal.create", "beer/models/normal.py:Normal.mean", "beer/models/normal.py:Normal.cov", "beer/models/normal.py:Normal.accumulate", "beer/inference/objectives.py:evidence_lower_bound"]}
{"id": "C170", "title": "What inference on a compiled graph does not depend on, and the best path against the sum over paths", "statement": "Adding a number to the log-likelihoods of all the states of a frame changes neither the state posteriors nor the transition posteriors of CompiledGraph.posteriors; it is added to the log-evidence, and best_path still returns a best sequence for the original scores. The score of the sequence of best_path is at most the log-evidence and falls short of it by at most the logarithm of the number of possible sequences. A graph whose weights are all at least those of another gives every utterance at least its evidence and its best score, so a graph restricted to a transcription never exceeds the free one. When one sequence only is possible the posteriors are exactly this sequence, best_path returns it and the log-evidence is its score.", "quantifier": "all compiled graphs, all numbers of frames and states, all log-likelihoods including impossible ones, all per-frame numbers", "why_tests_cant": "the comparison is over exponentially many sequences and all scores; tests compare a few small graphs", "anchors": ["beer/graph.py:CompiledGraph.posteriors", "beer/graph.py:CompiledGraph.best_path", "beer/graph.py:CompiledGraph._baum_welch_forward", "beer/graph.py:CompiledGraph._baum_welch_backward"]}
{"id": "C171", "title": "Training a mixture or an HMM re-estimates every Normal from its share of the data", "statement": "A step of learning rate one of a Mixture of Normal models (diagonal, isotropic or full covariances) replaces every component, whatever it was, by its prior pooled with the data weighted by the shares of the component: its mean is that of the observations of the prior and of the weighted data, its covariance pools those of the prior, of the weighted data and the scatter between their means. The shares of a data point are proportional to exp(log-weight) exp(log-likelihood) before the step. The mean weights become the counts of the prior plus the numbers of observations, normalised, and those numbers add up to datasize. The same holds for the Normals of the states of an HMM, with the acoustic scale times the probability of the state at the frame as weights. No data are lost: the means with the numbers of observations behind them add up to those of the priors and of the data. A mixture of one component is trained exactly like the Normal alone, at any learning rate.", "quantifier": "all numbers of components and states, all graphs, all data, all valid priors and posteriors, all acoustic scales and data set sizes, the three types of covariance", "why_tests_cant": "the formula is over all data and all parameters; tests only check that the bound increases or that shapes agree", "anchors": ["beer/models/mixture.py:Mixture.expected_log_likelihood", "beer/models/mixture.py:Mixture.accumulate", "beer/models/hmm.py:HMM.accumulate", "beer/models/normalset.py:NormalSet.accumulate", "beer/models/normal.py:Normal.mean", "beer/models/normal.py:Normal.cov", "beer/inference/objectives.py:evidence_lower_bound"]}
{"id": "C172", "title": "Training stalls only at a fixed point", "statement": "Train a Mixture of at least two components, or an HMM, on a batch, with learning rates in (0, 1]. Either the objective (evidence_lower_bound; for an HMM the log-probabilities of the utterances minus the divergence) strictly increases, or no parameter has changed, and then no further training on this batch, with any learning rates, changes anything: training never cycles and never drifts along a plateau. A stalled mixture of Normals is in equilibrium with the data: every component is its prior pooled with its own share of the data. Components that are all at their priors are not: the first step strictly increases the bound. K copies of one Normal model trained on a K-th of the data, with equal weights, are such an equilibrium on any data. A mixture with a single component is the exception: its weights do not enter the bound, and a step may move them without changing it.", "quantifier": "all numbers of components (at least two) and states, all graphs, all data, all valid parameters, all sequences of learning rates, sets of Normals (three covariances), categoricals, mixtures, repeated and joint sets", "why_tests_cant": "the absence of plateaus is a statement about all states and all sequences of steps; tests run a few iterations", "anchors": ["beer/models/mixture.py:Mixture.accumulate", "beer/models/mixtureset.py:MixtureSet.accumulate", "beer/models/hmm.py:HMM.accumulate", "beer/models/parameters.py:ConjugateBayesianParameter.natural_grad_update", "beer/inference/objectives.py:evidence_lower_bound", "beer/dists/basedist.py:kl_div"]}
{"id": "C173", "title": "What the acoustic scale does", "statement": "The state posteriors of an HMM whose log-likelihoods are multiplied by an acoustic scale: with a scale of 0 they are those of the graph alone, whatever the features; the comment of recipes/aud/utils/posteriors.py says that they are flat (1/K), which holds when the graph prefers no state and no transition, and fails on a left-to-right graph, where they are 0 and 1. When the scale grows they converge to those of the allowed state sequences with the best acoustic score, weighted by the graph; so they become sharp (the comment) when one sequence is best, and with ties they do not, at any scale. In between, expected_log_likelihood divided by the scale never decreases with the scale; a larger scale decodes a sequence that fits the frames at least as well and that the graph finds at most as probable; from some scale on the decoded sequence has the best acoustic score that the graph allows, and at scale 0 it is one the graph finds most probable.", "quantifier": "all graphs, all numbers of states and frames, all log-likelihoods, all scales, all maximum choices of the decoder", "why_tests_cant": "limits in a real parameter, and a monotonicity over all pairs of scales; a test can only try some scales on some graphs", "anchors": ["beer/models/hmm.py:HMM.expected_log_likelihood", "beer/models/hmm.py:HMM.decode", "beer/models/hmm.py:HMM.posteriors", "beer/graph.py:CompiledGraph.posteriors", "beer/graph.py:CompiledGraph.best_path", "recipes/aud/utils/posteriors.py:compute_posts"]}
{"id": "C174", "title": "The scores of the alternative boundary script", "statement": "recipes/aud/utils/score_boundaries2.py prints the recall, the precision and the f-score of the boundaries of the units: the hits over the boundaries of the reference and of the hypothesis and their harmonic mean, all between zero and one; transcriptions with the same boundaries have scores of one; a hypothesis that finds no boundary has scores of zero; all the boundaries of the reference being in the hypothesis gives a recall of one; units that are not in the mapping do not move the boundaries of the others; utterances that cannot be scored (missing or empty hypothesis) raise.", "quantifier": "all transcriptions, all tolerances, all mappings", "why_tests_cant": "a statement about all pairs of transcriptions; a test on a few of them cannot rule out a double count or an index out of the array", "anchors": ["recipes/aud/utils/score_boundaries2.py:main", "recipes/aud/utils/score_boundaries2.py:get_hits", "recipes/aud/utils/score_boundaries2.py:boundaries", "recipes/aud/utils/score_boundaries2.py:map_trans"]}
{"id": "C175", "title": "The units of the old TIMIT recipe", "statement": "recipes/timit_v2/utils/hmm-create-graph-and-emissions.py writes one HMM for each phone of the list, in order: the inner states of the units have the densities 0, 1, ... in order, each used once and as many as the emissions written; the probabilities of the arcs leaving a state sum to one; every arc leads to a state of the unit; a configuration it cannot follow raises; a unit is the one mkphones.py makes, normalised.", "quantifier": "all configurations, all lists of phones", "why_tests_cant": "a statement about all configurations and lists of phones; a test on the shipped ones cannot rule out a unit that takes the densities of another", "anchors": ["recipes/timit_v2/utils/hmm-create-graph-and-emissions.py:main", "recipes/timit_v2/utils/hmm-create-graph-and-emissions.py:create_unit_graph", "recipes/timit_v2/utils/hmm-create-graph-and-emissions.py:create_emissions"]}
{"id": "C176", "title": "The value of an HMM or a mixture has the gradient of the log-probability", "statement": "HMM.expected_log_likelihood and Mixture.expected_log_likelihood hold the responsibilities constant (detach) when autograd differentiates their value: the derivative obtained, along any change of the log-likelihoods of the frames, is that of the log-probability of the utterance (the comment in hmm.py says so), namely the state posteriors times the derivatives of the log-likelihoods; the log-probability is convex in the log-likelihoods and above this tangent; its derivatives in the transition log-probabilities are the summed transition posteriors; raising one log-likelihood multiplies the odds of its state; with viterbi=True the derivative is that of the log-probability of the best path where this path is unique.", "quantifier": "all graphs, all numbers of frames and states, all differentiable curves of log-likelihoods, all log-weights", "why_tests_cant": "an identity of derivatives over all curves in the space of log-likelihoods; a finite difference at a few points cannot establish it", "anchors": ["beer/models/hmm.py:HMM.expected_log_likelihood", "beer/models/hmm.py:HMM._inference", "beer/models/mixture.py:Mixture.expected_log_likelihood", "beer/graph.py:CompiledGraph.posteriors"]}
{"id": "C177", "title": "Training with given state sequences or with Viterbi never decreases the objective", "statement": "evidence_lower_bound(hmm, data, state_path=\u2026) and viterbi=True, followed by backward and VBConjugateOptimizer.step: training never decreases the scaled log-probability of the frames and of their sequence minus the divergence of the posteriors; the value reported is this one up to the log-probability of the sequence in the graph; Viterbi training stays below training with the posteriors and, with learning rate one, reaches after finitely many steps parameters which no further step changes; with given sequences every state is updated with the frames aligned to it and with nothing else, and one step with learning rate one reaches, whatever the initial posteriors, the exact posteriors of these frames.", "quantifier": "all graphs, all emission families obeying the laws of the library (all conjugate ones), all utterances and sequences, all learning rates in (0,1], all acoustic scales", "why_tests_cant": "monotonicity over all data, sequences and training schedules; a test can only look at a few curves", "anchors": ["beer/models/hmm.py:HMM._inference", "beer/models/hmm.py:HMM.expected_log_likelihood", "beer/models/hmm.py:HMM.accumulate", "beer/inference/objectives.py:evidence_lower_bound", "recipes/timit_v2/utils/hmm-train-with-alignments.py"]}
{"id": "C178", "title": "Training on mini-batches averages the exact posteriors of the batches", "statement": "Train a Normal or Categorical model with evidence_lower_bound(model, batch, datasize), backward and VBConjugateOptimizer.step on a sequence of mini-batches: the natural parameters of the posterior are a weighted mean of those of the initial posterior and of the exact posteriors of the batches, with weights given by the learning rates. With the share of the batch in the data seen so far as learning rate (1, 1/2, 1/3, \u2026 for batches of one size), one pass over the data gives the exact posterior of all of them. With a constant learning rate and batches of one size the posterior runs into a cycle whose mean is this exact posterior, and which is close to it for a small learning rate; with learning rate one, the default, only the last batch counts. The mean of the reported values of the batches, weighted by their sizes, is the value for all their data.", "quantifier": "all conjugate families of the library, all batches, all orders and numbers of passes, all learning rates in (0,1], all initial posteriors", "why_tests_cant": "a limit over infinitely many updates and an identity over all sequences of batches and learning rates", "anchors": ["beer/inference/objectives.py:evidence_lower_bound", "beer/inference/objectives.py:EvidenceLowerBoundInstance.backward", "beer/inference/optimizers.py:VBConjugateOptimizer.step", "beer/models/parameters.py:ConjugateBayesianParameter.natural_grad_update", "beer/models/normal.py:Normal.accumulate", "beer/models/categorical.py:Categorical.accumulate"]}
{"id": "C179", "title": "Errors of the scores and of the weights do not grow", "statement": "Compute the posteriors, the log-probability and the best path of an utterance (CompiledGraph.posteriors, best_path, and a frame of Mixture.expected_log_likelihood) from log-likelihoods and log-weights that are wrong by bounded amounts (rounding, features stored with less precision, weights not yet converged): the log-probability and the score of the best path move by no more than one error per frame and per transition, whatever the number of states and of sequences; the posteriors by a factor of at most the exponential of twice that; the decoded sequence is within twice that of the best one, and is the same one when all the others are worse by more; the bounds are reached.", "quantifier": "all graphs, all utterances, all errors, all ways of breaking ties", "why_tests_cant": "a bound over all perturbations of all scores and weights at once; a test perturbs a few numbers", "anchors": ["beer/graph.py:CompiledGraph.posteriors", "beer/graph.py:CompiledGraph.best_path", "beer/graph.py:CompiledGraph._baum_welch_forward", "beer/models/mixture.py:Mixture.expected_log_likelihood"]}
{"id": "C180", "title": "How long a unit lasts", "statement": "Decode utterances with a phone loop (trained or not; when trained, not made of a single unit which begins and ends in the same state) of units whose topology never leads back to its first emitting state, like all those of the recipes: every occurrence of a unit lasts at least the number of frames its topology needs (its number of emitting states when no arc skips a state, three for the non-speech unit of the recipes), so the units printed never need more frames than the utterance has; a topology with a loop allows any longer duration. The expected counts of the units from which the phone loop is trained, each multiplied by the frames the unit needs, add up to the number of frames at most. The compiled graph of a unit with n states in a row, each kept with probability a, gives a duration of d frames the negative binomial weight C(d-1, n-1) a^(d-n) (1-a)^(n-1), whose mean is n/(1-a) frames (12 frames for the speech units of the recipes) whatever the weight given to leaving a state; these weights add up to 1/(1-a), the probability of leaving the last state being normalised away.", "quantifier": "all inventories of units, all features, all weights of the units, all numbers of states and of frames", "why_tests_cant": "the least duration is about all utterances and the law about infinitely many durations and exponentially many state sequences; a test looks at some decoded utterances", "anchors": ["beer/graph.py:Graph.compile", "beer/graph.py:CompiledGraph.best_path", "beer/graph.py:CompiledGraph._baum_welch_forward", "beer/cli/subcommands/hmm/decode.py:state2phone", "beer/models/phoneloop.py:PhoneLoop.accumulate", "recipes/aud/conf/hmm.yml"]}
{"id": "C181", "title": "What training makes of the weights of a mixture", "statement": "Create weights with Categorical.create(weights, prior_strength) and train them with a full step on any responsibilities: the mean weight of a component (Categorical.mean) is (s w + n)/(s + N), the compromise of the prior and of its share n of the N frames; the weight used for inference, the exponential of the expected log-likelihood, is smaller by a factor of at most exp(1/(s w + n)); a component which got no data is used with a weight smaller by a factor exp(-1/(s w)), up to (1 + 1/(s w)) exp(1/(s + N)), so that it is practically removed when s w is small; both rank the components alike; and both converge to the relative frequencies when the data count more and more, whatever the prior.", "quantifier": "all weights, all strengths, all numbers of components, all responsibilities, all posteriors before the step", "why_tests_cant": "inequalities and a limit over all counts, priors and numbers of components; a test looks at some of them", "anchors": ["beer/models/categorical.py:Categorical.create", "beer/models/categorical.py:Categorical.mean", "beer/models/categorical.py:Categorical.expected_log_likelihood", "beer/dists/dirichlet.py:Dirichlet.expected_sufficient_statistics", "beer/models/parameters.py:ConjugateBayesianParameter.natural_grad_update"]}
{"id": "C182", "title": "What training makes of stick-breaking weights", "statement": "Train the weights of SBCategorical.create(truncation, prior_strength) with a full step on any data: the components are put in the order of their counts, and a component with more data has a larger mean weight and is used with a larger weight for inference. From a component to the next one the mean weight is multiplied by (1 + n')/(1 + n) (a + T)/(1 + a + T), T being the count of all the later components and a the strength, and the weight used for inference by exp(psi(1 + n') - psi(1 + n) - 1/(a + T)). The components without data follow with means decreasing by the factor a/(1 + a) and weights for inference by exp(-1/a); all of them together keep at most a/(1 + a + N) of the weight after N frames, however many they are.", "quantifier": "all truncations, strengths, data, sizes of the data set, posteriors before the step and ways of breaking ties", "why_tests_cant": "inequalities over all counts, strengths and numbers of components; a test looks at some of them", "anchors": ["beer/models/categorical.py:SBCategorical.create", "beer/models/categorical.py:SBCategorical.mean", "beer/models/categorical.py:SBCategorical.expected_log_likelihood", "beer/models/categorical.py:SBCategorical._transform_stats", "beer/models/categorical.py:SBCategorical._log_prob"]}
{"id": "C183", "title": "What training makes of the Dirichlet weights of a bigram phone loop", "statement": "One full step of the training of BigramPhoneLoop.create(graph, start_pdf, end_pdf, modelset, prior_strength=s) on an utterance makes the transition from one unit to another the more likely the more often the second follows the first, and the probabilities of the transitions leaving a state sum to at most one.", "quantifier": "all units, utterances, transition posteriors, strengths of the prior, posteriors before the step and loop probabilities", "why_tests_cant": "needs the composition of the statistics, the update and the callback which installs the weights, for all counts", "anchors": ["beer/models/phoneloop.py:BigramPhoneLoop.create", "beer/models/phoneloop.py:BigramPhoneLoop._on_weights_update", "beer/models/phoneloop.py:BigramPhoneLoop.accumulate", "beer/models/categoricalset.py:CategoricalSet.expected_log_likelihood"]}
