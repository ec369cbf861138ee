{"id": "C01", "title": "Variables are well formed", "statement": "make_variable(size, name) returns a variable reporting exactly that size and name when the name is non-empty and the size is positive, and throws in every other case; so no Variable with an empty domain or empty name can ever be observed.", "quantifier": "for every size and every name", "why_tests_cant": "sizes and names range over unbounded domains; a test can only try a few", "anchors": ["src/src/categoric/Variable.cpp: Variable::Variable, make_variable", "src/header/EasyFactorGraph/categoric/Variable.h: Variable::operator=="]}
{"id": "C02", "title": "A Group never holds the same variable twice, and a refused change leaves it as it was", "statement": "Every Group that can be obtained through its constructors, add and replaceVariables is non-empty, lists pairwise different variables (as documented: pairwise different names), its variable list and its variable set describe the same variables, size() is the product of the sizes, and a call that throws leaves the group unchanged; replaceVariables only succeeds for a list of the same length and the same sizes position by position.", "quantifier": "for every finite sequence of constructor/add/replaceVariables calls with arbitrary variables", "why_tests_cant": "the number of call sequences and variable lists is unbounded; duplicates that only differ in size, and over-long replacement lists, are never exercised", "anchors": ["src/src/categoric/Group.cpp: Group::Group, Group::add, Group::replaceVariables, Group::size", "src/header/EasyFactorGraph/categoric/Group.h"]}
{"id": "C03", "title": "Ranging over a group visits the whole joint domain exactly once, in order", "statement": "Starting a GroupRange over a non-empty list of positive sizes and incrementing it until it equals the end visits exactly prod(sizes) combinations, every valid combination exactly once, in lexicographic order with the last variable changing fastest, and then stops; incrementing past the end throws.", "quantifier": "for every non-empty list of positive sizes, of any length", "why_tests_cant": "a test can enumerate only a few shapes; the claim is about every shape and about termination", "anchors": ["src/src/categoric/GroupRange.cpp: GroupRange::operator++", "src/header/EasyFactorGraph/categoric/GroupRange.h: for_each_combination, GroupRange::isEqual"]}
{"id": "C04", "title": "Factor images: the last write wins and nothing else changes", "statement": "After any sequence of accepted set(comb, value) calls on a Factor, the image of every valid combination is the value of the last accepted set for that combination and 0 if there was none; the internal change of representation that happens when enough combinations are stored is never observable through image lookups.", "quantifier": "for every group, every sequence of set calls, every combination queried", "why_tests_cant": "the representation switch depends on how many and which combinations were written; the number of write histories is unbounded", "anchors": ["src/src/factor/Function.cpp: Function::set, Function::findImage, CombinationHasher::operator()", "src/src/factor/Mutable.cpp: Mutable::set"]}
{"id": "C05", "title": "set refuses exactly the invalid writes, without side effects", "statement": "Factor::set throws exactly when the value is negative, the combination has the wrong length, or one of its entries is out of the domain of the corresponding variable; when it throws, no image changes.", "quantifier": "for every factor state, combination and value", "why_tests_cant": "negative space: infinitely many malformed inputs", "anchors": ["src/src/factor/Mutable.cpp: Mutable::set"]}
{"id": "C06", "title": "Visiting a factor reports each combination once with its image", "statement": "forEachCombination calls the visitor exactly once per combination of the joint domain, in range order, with the very image that a direct lookup of that combination gives (raw or transformed as requested), whatever representation is in use.", "quantifier": "for every factor state reachable by set/clear/copy, raw and transformed", "why_tests_cant": "two different traversal algorithms must agree for every stored content", "anchors": ["src/header/EasyFactorGraph/factor/Function.h: forEachCombination", "src/src/factor/Function.cpp: findImage, findTransformed"]}
{"id": "C07", "title": "The non-null visit reports exactly the non-zero images", "statement": "forEachNonNullCombination calls the visitor exactly once for each combination whose image is different from 0, and for no other combination, whatever representation is in use.", "quantifier": "for every factor state", "why_tests_cant": "depends on whether zeros were written explicitly and on the representation in use", "anchors": ["src/header/EasyFactorGraph/factor/Function.h: forEachNonNullCombination"]}
{"id": "C08", "title": "getProbabilities is a probability distribution proportional to the images", "statement": "For a factor whose transformed images are non-negative, getProbabilities returns one entry per combination in range order; entries are non-negative and sum to 1; each is the image divided by the sum of all images, or, when all images are 0, all entries are equal.", "quantifier": "for every factor with non-negative images", "why_tests_cant": "arbitrary domain shapes and values", "anchors": ["src/src/factor/Immutable.cpp: Immutable::getProbabilities"]}
{"id": "C09", "title": "Merging factors gives the pointwise product on the union of the variables", "statement": "Factor(factors) succeeds for every non-empty collection whose equal variables are the same instance, ranges over exactly the union of their variables, and its image at each combination is the product of the transformed images of the merged factors at the restriction of that combination; the result (as a function of variable assignments) does not depend on the order of the factors nor on the order in which the union is iterated. It throws when equal variables come as different instances, or when the collection is empty.", "quantifier": "for every list of factors and every iteration order of the union of their variables", "why_tests_cant": "the variable order of the result is decided by hash iteration order, and early exits at 0 must not matter", "anchors": ["src/src/factor/Factor.cpp: gather_variables, Factor::Factor(const std::vector<const Immutable*>&)", "src/src/factor/ImageFinder.cpp"]}
{"id": "C10", "title": "Permuting the group of a factor preserves every image", "statement": "cloneWithPermutedGroup(new_order) returns a factor over new_order whose image at each assignment of the variables equals the image of the original at the same assignment, and throws exactly when new_order is not a permutation of the factor's own variables.", "quantifier": "for every factor, every permutation of its group and every assignment", "why_tests_cant": "all permutations of groups of any length", "anchors": ["src/src/factor/Factor.cpp: Factor::cloneWithPermutedGroup, compute_new_positions, get_permuted"]}
{"id": "C11", "title": "Correlation factors have the documented images", "statement": "The simply correlated factor over at least two variables of equal size has image 1 on combinations with all values equal and 0 elsewhere; the anti-correlated one has 0 and 1 swapped; both constructors throw when sizes differ or there is a single variable.", "quantifier": "for every group of variables, any number and any common size", "why_tests_cant": "any number of variables and any domain size; the two use different representations", "anchors": ["src/src/factor/Factor.cpp: SimplyCorrelatedFunction, SimplyAntiCorrelatedFunction, check_all_same_size"]}
{"id": "C12", "title": "Exponential factors evaluate to exp(weight * raw image) and keep raw images", "statement": "A FactorExponential built from a Factor with weight w has transformed image exp(w * raw) at each combination, where raw is the image in the original factor; setWeight only changes w; copying copies raw images and weight; CloneTransformedImages of any factor yields a plain factor whose images are the transformed ones.", "quantifier": "for every factor, weight and sequence of setWeight/copy", "why_tests_cant": "arbitrary contents and weights", "anchors": ["src/src/factor/FactorExponential.cpp", "src/src/factor/Factor.cpp: Factor::Factor(const Immutable&, CloneTrasformedImagesTag)"]}
{"id": "C13", "title": "Copies of a factor are independent of the original", "statement": "Copying a Factor gives a factor with the same variables and images, and any later sequence of set/clear/replaceVariables on either one leaves the images and variables of the other unchanged.", "quantifier": "for every factor and every pair of later mutation sequences", "why_tests_cant": "aliasing through shared pointers only shows for particular interleavings of mutations", "anchors": ["src/src/factor/Factor.cpp: Factor::Factor(const Factor&)", "src/header/EasyFactorGraph/factor/Function.h: cloneImages"]}
{"id": "C14", "title": "Merging unary factors is the normalised pointwise product", "statement": "Combining unary factors of one variable gives a unary factor whose images are all images multiplied together and rescaled so that the largest is 1; when every product is 0 the result must still be a usable (not NaN) distribution.", "quantifier": "for every non-empty list of unary factors of the same variable with non-negative images", "why_tests_cant": "arbitrary values, including contradictory factors whose product vanishes", "anchors": ["src/src/structure/SpecialFactors.cpp: MergableFunction::merge, MergableFunction::normalize, MergedUnaries"]}
{"id": "C15", "title": "Conditioning a binary factor on an observation selects the right row or column", "statement": "For a binary factor over X and Y and an observation Y=y, the unary contribution given to X has at each x the image of the factor at (X=x, Y=y), whichever of the two variables comes first in the factor's group.", "quantifier": "for every binary factor, either variable order, any sizes, and every value observed", "why_tests_cant": "row/column mix-ups are invisible on symmetric factors, which is what the suite uses", "anchors": ["src/src/structure/SpecialFactors.cpp: Evidence::Evidence, get_other_var, get_positions"]}
{"id": "C16", "title": "A SUM message marginalises the sender out of the shared factor", "statement": "The message sent from X to Y across a binary factor f is, at each y, the sum over x of (X's merged unary at x) * f(X=x, Y=y), for any binary factor and any domain sizes, whichever of the two variables comes first in f's group.", "quantifier": "for every binary factor, sizes and variable order", "why_tests_cant": "on symmetric factors with equal sizes a transposed computation gives the same numbers; the suite has no asymmetric factors or unequal sizes in propagation", "anchors": ["src/src/structure/SpecialFactors.cpp: fill_message, MessageSUM::MessageSUM, get_positions"]}
{"id": "C17", "title": "A MAP message maximises the sender out of the shared factor", "statement": "The MAP message sent from X to Y across f is, at each y, the maximum over x of (X's merged unary at x) * f(X=x, Y=y), including when all those products are 0.", "quantifier": "for every binary factor with non-negative images, sizes and variable order", "why_tests_cant": "hard zeros and asymmetric factors are not covered by tests", "anchors": ["src/src/structure/SpecialFactors.cpp: fill_message, MessageMAP::MessageMAP"]}
{"id": "C18", "title": "Hidden clusters are the connected components of the hidden graph", "statement": "After any sequence of factor insertions, evidence settings and evidence removals, the hidden clusters partition the non observed variables, and two hidden variables are in the same cluster exactly when they are linked by a chain of binary factors through hidden variables only.", "quantifier": "for every sequence of model operations and every hash iteration order", "why_tests_cant": "graph shapes and operation sequences are unbounded; incremental merging and splitting of clusters must agree with the global definition", "anchors": ["src/src/structure/Types.cpp: compute_clusters_", "src/src/structure/EvidenceManager.cpp: setEvidence, resetState", "src/src/structure/bases/FactorsAware.cpp: addBinaryDistribution"]}
{"id": "C19", "title": "Every variable is either hidden or observed, never both or neither", "statement": "At any time, also after operations that throw, each variable of the model is in exactly one of getHiddenVariables() and getObservedVariables().", "quantifier": "for every sequence of model operations, including failing ones", "why_tests_cant": "the state after an exception in the middle of a batch is reached only for particular iteration orders", "anchors": ["src/src/structure/bases/StateAware.cpp: getHiddenVariables, getObservedVariables", "src/src/structure/EvidenceManager.cpp: removeEvidences, removeEvidence_"]}
{"id": "C20", "title": "setEvidence records exactly the requested observation or refuses without effect", "statement": "setEvidence(var, value) throws exactly when the value is out of the domain or the variable is not part of the model, and then nothing changes; otherwise getEvidences() afterwards maps var to value and is unchanged elsewhere.", "quantifier": "for every model state, variable and value", "why_tests_cant": "unbounded states; no-effect-on-throw needs the whole state to be compared", "anchors": ["src/src/structure/EvidenceManager.cpp: EvidenceSetter::setEvidence"]}
{"id": "C21", "title": "removeEvidence forgets exactly the given observations", "statement": "removeEvidence(var) throws exactly when var is not observed; otherwise var becomes hidden and the remaining observations stay and keep conditioning their neighbours. removeAllEvidences always leaves every variable hidden, no observation, and every binary factor active again.", "quantifier": "for every model state and every observed variable", "why_tests_cant": "only shows for particular adjacency of observed variables; the suite never removes one of two adjacent observations and then queries", "anchors": ["src/src/structure/EvidenceManager.cpp: removeEvidence_, removeEvidence, removeAllEvidences"]}
{"id": "C22", "title": "A refused factor insertion leaves the model unchanged", "statement": "When adding a factor throws (null, already inserted, not unary/binary, variable known under a different instance, variables already connected) the variables, factors, evidences and query results of the model are what they were before.", "quantifier": "for every model state and every rejected factor", "why_tests_cant": "partial updates before the throw are visible only by inspecting the whole model afterwards", "anchors": ["src/src/structure/bases/FactorsAware.cpp: addDistribution, findOrMakeNode, addBinaryDistribution"]}
{"id": "C23", "title": "The model registers every accepted factor once and connects exactly its variables", "statement": "After any sequence of operations: each accepted factor is listed once; every variable of an accepted factor is in getAllVariables(), each variable once and in order of first insertion; no two binary factors join the same two variables; and two variables are neighbours exactly when an accepted binary factor joins them.", "quantifier": "for every sequence of model operations", "why_tests_cant": "an invariant over unbounded histories", "anchors": ["src/src/structure/bases/FactorsAware.cpp", "src/header/EasyFactorGraph/structure/bases/FactorsAware.h: getAllFactors"]}
{"id": "C24", "title": "Propagation recognises trees exactly", "statement": "After propagating the belief, the structure reported for a hidden cluster says tree exactly when the cluster contains no cycle, for every number of threads; propagation of the exact kind always terminates.", "quantifier": "for every finite graph of hidden variables and every iteration order", "why_tests_cant": "termination and the iff quantify over all graphs", "anchors": ["src/src/structure/bases/BeliefAware.cpp: message_passing, propagateBelief", "src/src/structure/Types.cpp: updateConnectivity, canUpdateMessage"]}
{"id": "C25", "title": "Marginals on trees are exact", "statement": "When the hidden cluster of a variable has no cycles, getMarginalDistribution(var) is exactly the conditional distribution of var given the evidences: the product of all factors, with observed variables fixed at their value, summed over all the other hidden variables and normalised.", "quantifier": "for every tree shaped model, all factors, evidences, iteration orders and thread numbers (exact arithmetic)", "why_tests_cant": "needs brute force over unbounded trees and all factor values; the suite only checks symmetric correlation factors", "anchors": ["src/src/structure/QueryManager.cpp: getMarginalDistribution, gather_incoming_messages", "src/src/structure/bases/BeliefAware.cpp", "src/src/structure/SpecialFactors.cpp"]}
{"id": "C26", "title": "MAP estimates on trees are exact", "statement": "When the hidden cluster of a variable has no cycles, the value getMAP(var) returns is the value of var in a most probable assignment of the hidden variables given the evidences, and when the most probable assignment is unique, getHiddenSetMAP() is that assignment.", "quantifier": "for every tree shaped model, factors and evidences (exact arithmetic)", "why_tests_cant": "needs brute force maximisation over unbounded trees; hard zeros and asymmetric factors are not tested", "anchors": ["src/src/structure/QueryManager.cpp: getMAP, getHiddenSetMAP, find_max", "src/src/structure/SpecialFactors.cpp: MessageMAP"]}
{"id": "C27", "title": "An observed variable has a certain marginal", "statement": "getMarginalDistribution and getMAP of an observed variable give probability 1 to (respectively return) the observed value, in every state.", "quantifier": "for every state and every observed variable", "why_tests_cant": "quantifies over all states", "anchors": ["src/src/structure/QueryManager.cpp: getMarginalDistribution(const NodeLocation&)"]}
{"id": "C28", "title": "Query results only depend on the current factors, weights and evidences", "statement": "A query gives the same answer as the same query on a freshly built model with the same factors, current weights and current evidences: nothing computed before an insertion, an evidence change or a weight change is reused in a later answer.", "quantifier": "for every sequence of operations and queries before the query", "why_tests_cant": "stale caches only show for particular interleavings of queries and updates", "anchors": ["src/src/structure/bases/BeliefAware.cpp: propagateBelief, wouldNeedPropagation", "src/header/EasyFactorGraph/misc/Cache.h", "src/src/trainable/FactorsTunableManager.cpp: setWeights"]}
{"id": "C29", "title": "Tree propagation does not depend on the number of threads or their schedule", "statement": "In each parallel round of message computation no task reads or writes what another task of the round writes, and the messages obtained are the same for every thread number and every interleaving of the tasks.", "quantifier": "for every graph, thread number and schedule", "why_tests_cant": "races cannot be excluded by running", "anchors": ["src/src/structure/bases/BeliefAware.cpp: message_passing", "src/src/structure/bases/PoolAware.cpp: Pool::parallelFor"]}
{"id": "C30", "title": "Loopy propagation schedules every message once per iteration without conflicts", "statement": "The schedule used for loopy clusters contains each message of the cluster exactly once; with more than one thread, inside each group executed in parallel no message is both produced and consumed; building the schedule terminates.", "quantifier": "for every cluster graph and iteration order", "why_tests_cant": "all graphs, all iteration orders", "anchors": ["src/src/structure/BaselineLoopyPropagator.cpp: compute_loopy_order, have_no_changing_deps"]}
{"id": "C31", "title": "Loopy propagation stops within the allowed iterations and reports convergence truthfully", "statement": "On clusters with cycles at most the configured maximum number of iterations is run, and propagation is reported completed exactly when, in some allowed iteration, all message variations were below the tolerance; queries on it always return.", "quantifier": "for every graph, factors and iteration limit", "why_tests_cant": "termination and exactness of the flag over all models", "anchors": ["src/src/structure/BaselineLoopyPropagator.cpp: BaselineLoopyPropagator::propagateBelief", "src/header/EasyFactorGraph/structure/Types.h: PropagationContext, PropagationResult"]}
{"id": "C32", "title": "parallelFor runs every task exactly once and returns only afterwards", "statement": "Pool::parallelFor(tasks) executes each task exactly once, task k on thread k mod pool size, and returns only when all of them are done, so that consecutive calls never overlap; destroying the pool ends all workers.", "quantifier": "for every pool size, task list and interleaving of the threads, from construction on", "why_tests_cant": "all interleavings; a race at start-up is practically never observed in tests", "anchors": ["src/src/structure/bases/PoolAware.cpp: Pool::parallelFor, Worker::Worker, process_tasks_in_parallel", "src/header/EasyFactorGraph/structure/bases/PoolAware.h: Pool::Worker"]}
{"id": "C33", "title": "Asking for zero threads is refused without damaging the model", "statement": "A query or sampling request with 0 threads that needs the pool throws, and the model keeps working for later requests with a valid number of threads.", "quantifier": "for every state and every later sequence of requests", "why_tests_cant": "needs the state after a failed construction inside the model", "anchors": ["src/src/structure/bases/PoolAware.cpp: PoolAware::setPoolSize, Pool::Pool", "src/header/EasyFactorGraph/structure/bases/PoolAware.h: ScopedPoolActivator"]}
{"id": "C34", "title": "The joint marginal of a group of variables is their joint conditional distribution", "statement": "getJointMarginalDistribution(group) returns a factor over the variables in the requested order, proportional to the joint conditional distribution of those variables given the evidences, for any group of model variables, hidden or observed, on cycle-free models.", "quantifier": "for every cycle-free model and every group of its variables", "why_tests_cant": "groups that are not connected, or contain several observed variables, are not tested", "anchors": ["src/src/structure/QueryManager.cpp: getJointMarginalDistribution"]}
{"id": "C35", "title": "Samples are well formed and respect the evidences", "statement": "makeSamples returns exactly the requested number of samples, each with one in-domain value per variable in getAllVariables() order, with every observed variable at its observed value.", "quantifier": "for every model, context, thread number and random draws", "why_tests_cant": "all random sequences", "anchors": ["src/src/structure/GibbsSampler.cpp: makeSamples, makeSamplerNodes, evolve_samples, delta_and_burn_out"]}
{"id": "C36", "title": "Discrete sampling follows the distribution", "statement": "sampleFromDiscrete(p), for a draw s in [0,1), returns the index k whose cumulative interval contains s; in particular a value of probability zero is never returned.", "quantifier": "for every distribution and every draw", "why_tests_cant": "the boundary draws have tiny probability and do not show in tests", "anchors": ["src/src/structure/GibbsSampler.cpp: UniformSampler::sampleFromDiscrete"]}
{"id": "C37", "title": "Each Gibbs update draws from the full conditional of the model", "statement": "The distribution from which one Gibbs update resamples a hidden variable is the conditional distribution of that variable given the current values of all other variables under the product of all factors; hence the update leaves the model distribution invariant.", "quantifier": "for every model, current combination and hidden variable (exact arithmetic)", "why_tests_cant": "stationarity is a statement about all states and probabilities", "anchors": ["src/src/structure/GibbsSampler.cpp: make_sampling_task, makeSamplerNodes"]}
{"id": "C38", "title": "Parallel Gibbs updates are race free and reproducible", "statement": "With several threads, no variable resampled in a parallel group is read by another update of that group, each hidden variable is resampled exactly once per iteration, and with a given seed and thread number the samples do not depend on thread scheduling.", "quantifier": "for every model, seed, thread number and interleaving", "why_tests_cant": "all schedules", "anchors": ["src/src/structure/GibbsSampler.cpp: make_sampling_tasks, SamplerNode::noChangingDeps"]}
{"id": "C39", "title": "Training sets are rectangular and subsets are drawn from them", "statement": "A TrainSet can only be built from a non-empty list of combinations of equal positive length; an iterator with percentage 1 visits every sample exactly once in order; with percentage p in (0,1) it visits exactly floor(p*n) samples, all members of the set; any other percentage throws.", "quantifier": "for every list of combinations, percentage and random draws", "why_tests_cant": "arbitrary data and random indices", "anchors": ["src/src/trainable/TrainSet.cpp: TrainSet::TrainSet, TrainSet::Iterator::Iterator", "src/header/EasyFactorGraph/trainable/TrainSet.h: forEachSample"]}
{"id": "C40", "title": "Weights round trip", "statement": "setWeights(w) throws when w has not one entry per tunable cluster and otherwise getWeights() returns w, with every factor of cluster k carrying weight w[k]; factors of the same sharing cluster always have equal weights.", "quantifier": "for every model, every weight vector and every history of insertions", "why_tests_cant": "invariant over unbounded histories", "anchors": ["src/src/trainable/FactorsTunableManager.cpp: getWeights, setWeights, addTunableFactor", "src/src/trainable/tuners/CompositeTuner.cpp"]}
{"id": "C41", "title": "The gradient is the gradient of the log-likelihood", "statement": "For a random field whose graph has no cycles, getWeightsGradient(train_set) is, for each tunable cluster, the mean over the samples of the sum of the raw images of its factors minus the expectation of that sum under the current model; that is the derivative of the average log-likelihood with respect to the shared weight.", "quantifier": "for every cycle-free random field, weights and training set (exact arithmetic)", "why_tests_cant": "analytic statement over all real weights; tests compare against a few closed forms with symmetric factors", "anchors": ["src/src/model/RandomField.cpp: getWeightsGradient_", "src/src/trainable/tuners/BaseTuner.cpp", "src/src/trainable/tuners/UnaryTuner.cpp", "src/src/trainable/tuners/BinaryTuner.cpp", "src/src/trainable/tuners/CompositeTuner.cpp"]}
{"id": "C42", "title": "A refused tunable insertion leaves the model unchanged", "statement": "When addTunableFactor throws, also because the group whose weight should be shared is unknown, the factors, tunable factors, weights and variables of the model are unchanged.", "quantifier": "for every state, factor and sharing group", "why_tests_cant": "partial effects before a throw", "anchors": ["src/src/trainable/FactorsTunableManager.cpp: addTunableFactor, findTuner"]}
{"id": "C43", "title": "Absorbing or copying a model preserves factors, evidences and weight sharing", "statement": "Copy construction or absorption into an empty model yields the same variables, evidences, and the same product of factors; tunable factors keep their weights and two tunable factors share a weight in the copy exactly when they do in the source.", "quantifier": "for every source model and iteration order", "why_tests_cant": "all models and iteration orders; sharing is matched by variable set", "anchors": ["src/src/model/RandomField.cpp: RandomField::absorb", "src/src/model/Graph.cpp: Graph::absorb", "src/src/trainable/FactorsTunableManager.cpp: absorbTunableClusters, findTuner", "src/header/EasyFactorGraph/structure/FactorsConstManager.h: absorbConstFactors"]}
{"id": "C44", "title": "Conditional random fields accept exactly the admissible sources", "statement": "Building a ConditionalRandomField throws exactly when the source has no evidence, or a tunable unary factor on an observed variable, or a tunable binary factor joining two observed variables; setEvidences assigns the i-th value to the i-th observed variable and throws on a length mismatch.", "quantifier": "for every source model and value list", "why_tests_cant": "all models; hash iteration orders of maps and sets", "anchors": ["src/src/model/ConditionalRandomField.cpp: ConditionalRandomField, replaceIfNeeded, setEvidences"]}
{"id": "C45", "title": "Conditional training sets span the evidences", "statement": "makeTrainSet(context, percentage) with a percentage in [0,1] returns samples for a set of distinct evidence combinations: all of them when the percentage is 1, and never crashes or repeats one; any other percentage throws.", "quantifier": "for every conditional random field and percentage", "why_tests_cant": "small percentages of small domains are not tested", "anchors": ["src/src/model/ConditionalRandomField.cpp: makeTrainSet"]}
{"id": "C46", "title": "A training set file is read back as written", "statement": "import_train_set on a text file with one whitespace separated combination per line returns exactly those combinations in order, and throws when lines have different lengths.", "quantifier": "for every list of equally long combinations", "why_tests_cant": "no test imports a training set; infinitely many files", "anchors": ["src/src/io/TrainSetImport.cpp: import_train_set", "src/src/io/Utils.cpp: parse_combination_image", "src/header/EasyFactorGraph/io/Utils.h: for_each_line"]}
{"id": "C47", "title": "A values file is read back as written", "statement": "Importing factor images from a text file with one 'combination image' line per entry sets exactly those images; blank or trailing empty lines do not break the import.", "quantifier": "for every list of entries", "why_tests_cant": "infinitely many files, in particular with a trailing newline", "anchors": ["src/src/io/Utils.cpp: import_values, parse_combination_image", "src/header/EasyFactorGraph/io/Utils.h: for_each_line"]}
{"id": "C48", "title": "Exporting a model to json and importing it gives the same model", "statement": "Importing an exported model into an empty one gives the same variables (names and sizes), evidences, factors with the same images, weights and weight sharing.", "quantifier": "for every model", "why_tests_cant": "arbitrary names, images, sharing structure", "anchors": ["src/src/io/json/Exporter.cpp", "src/src/io/json/Importer.cpp", "src/src/io/Utils.cpp: ImportHelper"]}
{"id": "C49", "title": "A conditional random field keeps its structure", "statement": "After it is made, no public operation of a ConditionalRandomField, whether it returns or throws, changes its variables, its factors and their variables, its clusters and tuners or which variables are observed, so the tuners chosen by the constructor always fit the model.", "quantifier": "for every source model and sequence of operations", "why_tests_cant": "all sequences of setEvidences, queries, training sets and gradients, also those which throw midway", "anchors": ["src/header/EasyFactorGraph/model/ConditionalRandomField.h: ConditionalRandomField", "src/src/model/ConditionalRandomField.cpp: replaceIfNeeded, setEvidences, getWeightsGradient_, makeTrainSet"]}
{"id": "C50", "title": "The gradient of a conditional random field is that of the conditional likelihood", "statement": "For a ConditionalRandomField whose hidden variables are joined without cycles, getWeightsGradient returns, for each cluster of tunable factors, the mean over the training set of the sum of the raw images of its factors minus the mean over the training set of the expectation of that sum given the observed part of each sample; with the exact exponential this is the derivative of the average conditional log-likelihood with respect to the shared weight.", "quantifier": "for every source model, every execution of the field, every training set, every number of threads and every order of the containers", "why_tests_cant": "all graphs, weights, samples and histories of the caches, and the orders of the hash containers, which a test run fixes", "anchors": ["src/src/model/ConditionalRandomField.cpp: getWeightsGradient_, setEvidences, find_positions", "src/src/model/HiddenObservedTuner.cpp: HiddenObservedTuner", "src/src/trainable/tuners/BinaryTuner.cpp: getGradientBeta", "src/src/trainable/tuners/UnaryTuner.cpp: getGradientBeta"]}
{"id": "C51", "title": "The training of a model follows its optimiser and the gradient", "statement": "train_model makes exactly the calls of getWeights, setWeights and of the gradient which the optimiser asks for, with the pool of the requested size and the previous one restored at the end; it changes nothing of the model but weights, evidences and caches, and leaves the weights set last. Every gradient is asked with the weights set before it, for a batch with the requested percentage of the training set, and is the opposite of the derivative of the average (conditional) log-likelihood of that batch at those weights.", "quantifier": "for every optimiser, model, execution before the training, training set, batch percentage, number of threads, source of random numbers and order of the containers", "why_tests_cant": "the optimiser is an arbitrary program interacting with the model for any number of steps, and stale caches show only after the weights have been changed between two gradients", "anchors": ["src/src/trainable/ModelTrainer.cpp: TrainSetWrapper::get, ModelWrapper, train_model", "src/header/EasyFactorGraph/trainable/ModelTrainer.h: TrainInfo", "src/header/EasyFactorGraph/structure/bases/PoolAware.h: ScopedPoolActivator"]}
{"id": "C52", "title": "No operation of a model has undefined behaviour", "statement": "Every operation on a random field with tunable and constant factors (creating and changing functions, inserting and copying factors, sharing and setting weights, setting and removing evidences by value or by name, the marginal, MAP and joint queries, the gradient and the Gibbs sampler) either returns or throws: it never reads past the end of a vector, follows a pointer which is null or dangling, or reads a message which was not computed. After an exception the model can be used further.", "quantifier": "for every execution, every operation and operands a program can give, on models with or without cycles, every number of threads and every order of the containers", "why_tests_cant": "undefined behaviour may go unnoticed in a test run, and depends on the sequence of operations which led to the caches in use", "anchors": ["src/src/structure/EvidenceManager.cpp", "src/src/structure/FactorsManager.cpp", "src/src/structure/QueryManager.cpp", "src/src/structure/GibbsSampler.cpp", "src/src/trainable/FactorsTunableManager.cpp", "src/src/trainable/tuners/BinaryTuner.cpp", "src/src/trainable/TrainSet.cpp: TrainSet"]}
{"id": "C53", "title": "Exporting a model to xml and importing it gives the same model", "statement": "Importing a model exported to xml into an empty one gives the same variables (names and sizes), evidences, factors with the same images, weights, tunable factors and weight sharing. This does not depend on the order in which the containers of the xml library give back the nested tags.", "quantifier": "for every model, every order of the containers of the model and of the nested tags, every address of the new variables", "why_tests_cant": "arbitrary names, images and sharing structure; the order of the containers of a given build of the library is always the same", "anchors": ["src/src/io/xml/Exporter.cpp", "src/src/io/xml/Importer.cpp", "src/src/io/Utils.cpp: ImportHelper"]}
{"id": "C54", "title": "Importing any document leaves a well-formed model", "statement": "Whatever the json or xml document is and whatever the model is before, the import either returns or throws; afterwards the model is one which the public operations reach, contains what it contained before, and has one more factor for each factor of the document. A refused document leaves the model as it was.", "quantifier": "for every document, every content of the files of values, every model reached by operations, every order of the containers", "why_tests_cant": "the documents are trees of any shape with arbitrary text; what goes wrong depends on the model before and on the place of the first wrong element", "anchors": ["src/src/io/json/Importer.cpp", "src/src/io/xml/Importer.cpp", "src/src/io/Utils.cpp: ImportHelper", "src/src/io/Utils.h: for_each_line"]}
{"id": "C55", "title": "After an import the model contains what the document says", "statement": "If the import of a json or xml document returns, then every element which describes a variable describes a proper one, none of them twice, and every element which describes a factor describes exactly one factor, which is in the model at a place of its own: on the named variables with the described sizes, with the described images (a correlation, a list of images, or a file), the described weight, as a constant or a tunable factor, in a group of its own or in the one of a factor on the variables it shares with. The evidences are the described ones, the first for each name, and the old ones for the names which are not described.", "quantifier": "for every document, every content of the files of values, every model reached by operations, every order of the containers, every reading of numbers", "why_tests_cant": "the documents are trees of any shape, with elements in any number and order, read in models with any content; a test reads one file into one model", "anchors": ["src/src/io/json/Importer.cpp", "src/src/io/xml/Importer.cpp", "src/src/io/Utils.cpp: ImportHelper, import_values", "src/src/io/Utils.h: for_each_line"]}
{"id": "C56", "title": "The samples of the Gibbs sampler follow the distribution of the model", "statement": "If the engines draw independent uniform numbers, the probability that the i-th sample passes a test differs from the probability of the test in the model given the evidences by at most (1-d)^(transient + i*delta), the mean square error of the frequency of the test in the samples is at most 4/(d*samples), and the frequency converges in probability when the number of samples grows. d > 0 depends on the model only.", "quantifier": "for every reached model with positive factors, with cycles or not, every set of evidences, every number of samples, transient, delta and threads, every order of the hash tables, every test on the samples", "why_tests_cant": "it is a statement on the distribution of the outcomes: a test compares one run with a tolerance, and a wrong conditional, a biased draw or a correlation between the threads can stay below it", "anchors": ["src/src/structure/GibbsSampler.cpp", "src/header/EasyFactorGraph/structure/GibbsSampler.h"]}
{"id": "C57", "title": "The marginals of a cluster do not depend on the other clusters", "statement": "The marginal of a hidden variable whose cluster has no cycles is its distribution in the product of the factors which involve a hidden variable of the cluster, even when the other clusters make the total weight zero; it is a list of NaN exactly when every product of the factors of the cluster is zero.", "quantifier": "for every model reached by prudent and steady operations, every cycle-free cluster, every content of the other clusters, every order of the hash tables, every number of threads", "why_tests_cant": "a leak between clusters shows only for some orders of insertion and iteration and some evidences; the contradictory clusters are a corner which no test of the repository visits", "anchors": ["src/src/structure/QueryManager.cpp", "src/src/structure/BeliefPropagator.cpp", "src/src/structure/SpecialFactors.cpp", "src/src/factor/Immutable.cpp:19-39"]}
{"id": "C58", "title": "With rounding, the marginals on trees have a small relative error", "statement": "If every arithmetic operation has a relative error of at most u, the marginals of a cycle-free cluster differ from the true ones by a relative error which is linear in the number of factors and in the sizes of the variables of the cluster: after N roundings, with N = 2 (factors + sum of (size + 4)) + size + 1, it is at most 2 N u (if 2 N u is at most 1). It is enough that the error is bounded for results between 1/H and H (in binary32, H = 2^126), when the images are between 1/A and A and (m A / (1 - u)^(m + 4))^(4 D + 3) <= H, with at most m values and D factors for each variable.", "quantifier": "for every ordered field, every rounding function with relative error at most u, every model reached by prudent and steady operations without sampling, every cycle-free cluster, every order of the hash tables, every number of threads", "why_tests_cant": "the tests compare a few models with a tolerance; a bound on the error for every tree needs an argument about how the errors of the messages add up", "anchors": ["src/src/structure/SpecialFactors.cpp:36-87", "src/src/structure/BeliefPropagator.cpp", "src/src/structure/QueryManager.cpp", "src/src/factor/Immutable.cpp:19-39"]}
{"id": "C59", "title": "With rounding, the MAP estimate on trees is nearly optimal", "statement": "If every arithmetic operation has a relative error of at most u, the value which getMAP returns for a hidden variable of a cycle-free cluster is its value in an assignment whose weight is at least (1 - u)^(2 N) times the greatest one, with N as in C58. When an assignment outweighs by more than this factor all the assignments which differ from it in the variable, getMAP returns its value, and getHiddenSetMAP returns the assignment when this holds for every hidden variable. It is enough that the error is bounded for results between 1/H and H, under the hypotheses of C58 on the images.", "quantifier": "for every ordered field, every rounding function with relative error at most u, every model reached by prudent and steady operations without sampling, every cycle-free cluster, every order of the hash tables, every number of threads", "why_tests_cant": "the tests use models whose best assignment is far from the others; how near to the best a returned assignment is in the worst case needs a bound on the error of every message", "anchors": ["src/src/structure/QueryManager.cpp", "src/src/structure/SpecialFactors.cpp:36-175", "src/src/structure/BeliefPropagator.cpp"]}
{"id": "C60", "title": "The size of a domain does not overflow", "statement": "With a std::size_t of N values, the size of a group is the number of its combinations, and the factors over it keep the last write of every combination (C04) and have the images of C11, with no undefined behaviour.", "quantifier": "for every N, every group of variables, every sequence of writes, every rounding of the critical size", "why_tests_cant": "the tests use groups of at most a few combinations; the conversions between sparse and dense images for groups of 2^64 combinations and more need an argument about the arithmetic of machine words", "anchors": ["src/src/factor/Function.cpp:14-100", "src/src/categoric/Group.cpp:60-66", "src/src/factor/Factor.cpp:87-109", "src/src/factor/Mutable.cpp:18-32"]}
{"id": "C61", "title": "Where the gradient vanishes the likelihood is greatest", "statement": "With the exact exponential, the average log-likelihood of a training set (the average conditional log-likelihood for a ConditionalRandomField) lies, as a function of the weights of the clusters, below its tangent at the weights of the model, the slope being what getWeightsGradient returns. So the gradient is zero if and only if no weights make the training set more likely: a training which stops at a zero gradient has found a global optimum.", "quantifier": "for every model without cycles, every execution, every training set, all the weights which setWeights can set", "why_tests_cant": "the tests compare the learned weights with those of the model which made the samples, on a few models; that no other weights are better is a statement on all real vectors", "anchors": ["src/src/model/RandomField.cpp: getWeightsGradient_", "src/src/model/ConditionalRandomField.cpp: getWeightsGradient_", "src/src/trainable/FactorsTunableManager.cpp: setWeights", "src/src/trainable/tuners/BinaryTuner.cpp: getGradientBeta", "src/src/trainable/tuners/UnaryTuner.cpp: getGradientBeta"]}
{"id": "C62", "title": "Copies, conditional random fields and training are defined", "statement": "Copying a model and making a ConditionalRandomField from it return or throw, with no undefined behaviour, and so does every operation of the ConditionalRandomField (setEvidences, getWeightsGradient, makeTrainSet, the queries, the sampling) and the training of both kinds of models, when the samples fit the variables and the percentage is sensible.", "quantifier": "for every execution before the call, every order in which the hashed containers are visited, every optimiser, every number of threads but 0, any arithmetic", "why_tests_cant": "the tests make conditional random fields from a few well formed models and check the results; they do not show that no container is read past its end on the other executions", "anchors": ["src/src/model/Graph.cpp:11-17", "src/src/model/RandomField.cpp:12-28", "src/src/model/ConditionalRandomField.cpp:20-229", "src/src/trainable/ModelTrainer.cpp:43-81", "src/src/structure/FactorsConstManager.cpp"]}
{"id": "C63", "title": "Asking again gives the same answer", "statement": "Between two changes of a model, the outcome of getMarginalDistribution, getMAP, getHiddenSetMAP and getJointMarginalDistribution does not depend on which queries were made before, how many and in which order: every query returns the value, or throws, as if it had been the first. This also holds for clusters with cycles, whose messages need not have converged.", "quantifier": "for every execution before, every list of queries in between (some of which may throw), every order of the containers, every number of threads but 0, any arithmetic", "why_tests_cant": "the tests make a few queries on small models and compare with exact values; caches (last propagation, merged unary factors, topology of the clusters) filled by one query are used by the next, and a wrong reuse shows only for particular sequences of queries", "anchors": ["src/src/structure/bases/BeliefAware.cpp:20-114", "src/header/EasyFactorGraph/structure/QueryManager.h:97-102", "src/src/structure/QueryManager.cpp:16-110", "src/src/structure/BaselineLoopyPropagator.cpp:66-110"]}
{"id": "C64", "title": "With several threads the answers do not depend on how many they are", "statement": "The outcome of getMarginalDistribution, getMAP, getHiddenSetMAP and getJointMarginalDistribution made with two or more threads depends neither on the number of threads nor on the order in which the threads run the tasks given to them, also for clusters with cycles: the messages, the number of iterations and the answer are the same, and the number of threads may change between queries.", "quantifier": "for every execution before, every list of queries in between, every two numbers of threads greater than 1, every two schedules, all values of an ordered field and NaN", "why_tests_cant": "the schedules of the operating system are not under the control of a test, and a dependency shows only for particular cycles and schedules; the convergence test combines per-thread maxima, whose split over the threads changes with their number", "anchors": ["src/src/structure/BaselineLoopyPropagator.cpp:27-107", "src/src/structure/bases/BeliefAware.cpp:20-114", "src/src/structure/bases/PoolAware.cpp: Pool::parallelFor"]}
{"id": "C65", "title": "A propagation strategy set by the user only matters for clusters with cycles", "statement": "The strategy given to setLoopyPropagationStrategy is used only for clusters whose factors form a cycle. When no cluster has a cycle every query has the outcome it has with the default strategy, whatever the strategy would do. When some clusters have cycles, a strategy which only writes messages of the cluster it is given does not change the marginals of the variables of the other clusters, and leaves every query defined. A null strategy is refused without effect. After a strategy is set the next answers are those of this strategy, and an exception thrown by a strategy leaves a model which can still be queried.", "quantifier": "for every execution before, every strategy, schedule, number of threads, list of queries, all values", "why_tests_cant": "strategies are arbitrary code: tests use the one of the library; exceptions and changes of strategy between queries of different kinds need particular orders of calls", "anchors": ["src/header/EasyFactorGraph/structure/bases/BeliefAware.h:17-46", "src/src/structure/bases/BeliefAware.cpp:13-23", "src/src/structure/bases/BeliefAware.cpp:76-114", "src/header/EasyFactorGraph/structure/QueryManager.h:97-113"]}
{"id": "C66", "title": "The report on the last propagation describes the model", "statement": "Whenever hasPropagationResult() is true, getLastPropagationResult() describes the model as it is at that moment: it lists, for every group of hidden variables linked by factors, the number of its variables and whether it is free of cycles; the numbers add up to the number of hidden variables, and without cycles the propagation is reported as completed. After a query which returned the report is that of the propagation the query needs. When there is no report, getLastPropagationResult() throws.", "quantifier": "for every execution, all factors, evidences, schedules and numbers of threads", "why_tests_cant": "tests read the report right after a propagation on a few graphs; that no sequence of changes, refused changes, samplings and queries leaves a report about another model needs an invariant over all of them", "anchors": ["src/header/EasyFactorGraph/structure/bases/BeliefAware.h:41-44", "src/header/EasyFactorGraph/structure/Types.h:95-111", "src/src/structure/bases/BeliefAware.cpp:76-114"]}
{"id": "C67", "title": "The overloads which take a name act on the variable of that name", "statement": "setEvidence, removeEvidence, removeEvidences, getMarginalDistribution, getMAP and getJointMarginalDistribution called with names act as the same functions called with the variables of the model which have these names. A name which no variable of the model has is refused with an exception, and the model is unchanged.", "quantifier": "for every state of the model, every name or list of names, every value, number of threads and schedule", "why_tests_cant": "tests use models with a few different names; that no state makes a name reach another variable, or lets an unknown name change the model, is a claim about all states and names", "anchors": ["src/src/structure/bases/StateAware.cpp:14-24", "src/src/structure/EvidenceManager.cpp:65-68", "src/src/structure/EvidenceManager.cpp:92-114", "src/src/structure/QueryManager.cpp:59-62", "src/src/structure/QueryManager.cpp:84-86", "src/src/structure/QueryManager.cpp:146-153"]}
{"id": "C68", "title": "The answers before and after an evidence belong to one distribution", "statement": "The marginal of a hidden variable is the average of the marginals which the library returns after each evidence on another variable, each weighted by the probability of that evidence (law of total probability). The marginals before and after an evidence on either of two variables satisfy the theorem of Bayes, and agree with the joint distribution of the two (chain rule).", "quantifier": "for every reachable model, every two hidden variables, all values, numbers of threads and schedules", "why_tests_cant": "tests compare single answers with precomputed numbers; that the answers of different states of the same model always fit together is a claim on all models and all pairs of variables", "anchors": ["src/src/structure/EvidenceManager.cpp:16-63", "src/src/structure/QueryManager.cpp:40-57", "src/src/structure/QueryManager.cpp:102-144", "src/src/structure/SpecialFactors.cpp: Evidence, MergedUnaries, Message"]}
{"id": "C69", "title": "The answers depend only on the distribution which the factors describe", "statement": "Two models with the same variables and evidences, whose factors have proportional products, return the same marginals, the same most probable values and proportional joint distributions, however the product is split into factors and in whatever order these were inserted.", "quantifier": "for every two reachable models, every variable or group, all numbers of threads and schedules", "why_tests_cant": "the same distribution can be split into factors in infinitely many ways, and tests try one per model", "anchors": ["src/src/structure/QueryManager.cpp:40-144", "src/src/structure/bases/StateAware.cpp", "src/src/structure/BaselineLoopyPropagator.cpp:27-107", "src/src/structure/SpecialFactors.cpp"]}
{"id": "C70", "title": "A change of an inserted factor is seen by the later queries", "statement": "When the images of a factor which is already part of a model are changed through the pointer that the caller kept (set, clear), the later marginals and most probable values are those of the product of the factors with the new images.", "quantifier": "for every reachable model, every factor of it, every new value, every hidden variable, all numbers of threads and schedules", "why_tests_cant": "whether a change is seen depends on what was cached before it, that is on the whole history of the model; tests set the images before the insertion", "anchors": ["src/src/factor/Mutable.cpp:18-32", "src/src/structure/bases/BeliefAware.cpp:25-28", "src/src/structure/QueryManager.cpp:16-57", "src/header/EasyFactorGraph/structure/FactorsConstManager.h"]}
{"id": "C71", "title": "The marginals are probability distributions on every graph", "statement": "What getMarginalDistribution returns is a list with one number for each value of the variable, all of them between 0 and 1 and with sum 1, also on the graphs with cycles, where the numbers are approximate, and also when the loopy propagation is stopped before it converges; the images of a joint distribution are not negative.", "quantifier": "for every reachable model, every variable, every graph, all numbers of iterations, threads and schedules, all factors", "why_tests_cant": "with cycles there is no reference value to compare with, and whether a message becomes zero, negative or NaN depends on the images, the evidences and the number of iterations", "anchors": ["src/src/structure/QueryManager.cpp:16-62", "src/src/factor/Immutable.cpp:20-45", "src/src/factor/Mutable.cpp:18-32", "src/src/structure/SpecialFactors.cpp:54-160", "src/src/structure/BaselineLoopyPropagator.cpp:27-143"]}
{"id": "C72", "title": "An answer depends only on the factors of its cluster, up to a positive scale", "statement": "If two models are built in the same way and the factors of the cluster of a hidden variable have in one of them the images of the other multiplied by a positive number, which may depend on the factor, then getMarginalDistribution returns for that variable the same list in both, and getMAP the same value, also if the cluster has cycles, where the answer is approximate, and also if the loopy propagation stops before it converges. In particular changing a factor of another cluster changes nothing.", "quantifier": "for all pairs of models reached by executions which release no variable with an observed neighbour, join variables of equal sizes and change no factor while a value computed from it is cached, both about to propagate; every graph, all images, all ratios, all numbers of iterations, threads and schedules; exact arithmetic", "why_tests_cant": "with cycles there is no reference value, and the independence of the scale is a statement about pairs of models with arbitrary images", "anchors": ["src/src/structure/SpecialFactors.cpp:54-160", "src/src/structure/BaselineLoopyPropagator.cpp:27-143", "src/src/structure/bases/BeliefAware.cpp:31-150", "src/src/structure/QueryManager.cpp:16-62", "src/src/factor/Immutable.cpp:20-45"]}
{"id": "C73", "title": "Joint distributions and marginals agree", "statement": "If all the factors are positive, getJointMarginalDistribution of a group made of one variable returns a factor whose images are a positive multiple of the list returned by getMarginalDistribution for that variable, and whose getProbabilities is that list, for a hidden as well as for an observed variable, also if the graph has cycles, where both are approximate, and also if the loopy propagation stops before it converges. Both queries leave the same model, and asking one after the other gives the same two answers. Where the clusters of the members have no cycles, the joint distribution of a group of several variables, summed over all the members but one, is a positive multiple of the marginal of that one.", "quantifier": "for all models reached by executions which release no variable with an observed neighbour, join variables of equal sizes and change no factor while a value computed from it is cached; every graph, all positive images, all numbers of iterations, threads and schedules; exact arithmetic", "why_tests_cant": "with cycles neither answer has a reference value; the agreement of the two code paths is a statement about all graphs and images, and a test compares them on a few", "anchors": ["src/src/structure/QueryManager.cpp:16-62", "src/src/structure/QueryManager.cpp:100-153", "src/src/structure/bases/BeliefAware.cpp:31-150"]}
