# A machine-checked model of Easy-Factor-Graph

This directory holds a Lean 4 model of the C++ library in `/repo` (headers in
`src/header/EasyFactorGraph`, sources in `src/src`) and proofs of the properties listed in
`properties.jsonl`. `MANIFEST.json` maps every property to the theorems that settle it.
Paths below are relative to `/repo/src/src` for `.cpp` files and to
`/repo/src/header/EasyFactorGraph` for `.h` files.

## 1. Trusted base

* Lean 4.33.0's kernel and the Mathlib version installed beside it.
* The axioms used by the theorems are at most `propext`, `Classical.choice` and `Quot.sound`
  (section 6 lists them per theorem). No axiom is added, and no `sorry`, `admit`,
  `native_decide` or `bv_decide` is used.
* The faithfulness of the hand-written model to the C++ text. Every definition of the model cites
  the lines it transcribes, and says where it simplifies. The simplifications are collected in
  section 3.
* The C++ standard library containers behave as specified (`std::unordered_map`, `std::list`, ...).

## 2. Shape of the model

* `Verif/Model/*` : the model, one file per component, executable total functions.
* `Verif/Spec/*` : the words in which the properties are stated (weight of an assignment, reachable
  states, what it means that two models are the same, ...), written without the helpers of the model.
* `Verif/Lemmas/*` : helper lemmas.
* `Verif/Props/*` : the property theorems, with `example`s showing a concrete non trivial case that
  meets the hypotheses.
* `Verif/Tests/*` : the deterministic unit tests of the repository (Test01 to Test07 and the β parts of Test09), run on
  the model in rational arithmetic, in which `exp x` is `1 + x²`. They check the model against what the authors of the
  code expect of it. They are not proofs of any property, and no claim rests on them. The tests of random sampling,
  learning and timing, and the large loopy grid, are not run.
* `tools/manifest.py` writes `MANIFEST.json` and `Verif.lean`, `tools/axioms.py` writes section 6.
* `seeded/` : the wrong programs the theorems were tested against.

Outcomes. A C++ call either returns, throws `EFG::Error`, or has undefined behaviour. Pure functions
return `Res α` (`ok`, `throw`, `ub`), methods that change an object return `Out σ α` (`ok s a`,
`throw s`, `ub`), so the state that is left behind by an exception is visible. Out of range
accesses, null dereferences, dangling pointers and integer divisions by zero give `ub`.

Arithmetic. `float` is a parameter: the model is written over a type class `Arith F` of
*operations* without laws. Theorems that need no law of arithmetic are proved for every `F`, so they
also hold for IEEE floats. Theorems that need arithmetic laws are proved for `Ext K`, the elements of
an arbitrary linearly ordered field `K` (for instance the reals) plus a `nan` element which absorbs
every operation and makes every comparison false; dividing by zero gives `nan` (in C++ `x/0` is
infinite or NaN; in all the places where the code divides by a possibly zero value it then multiplies
zeros by the infinite result, which gives NaN). The exponential is a parameter (any strictly
positive function; `Real.exp` for the gradient). C58 and C59 are proved in a second arithmetic on the same elements,
`Ext.rounded` (Model/Rounded), which rounds the result of every operation with an arbitrary function; the theorems
ask that its relative error is at most `u`, as for `float` with `u = 2⁻²⁴` away from overflow and underflow.

Pointers. A `VariablePtr` is a triple (address, name, size). Pointer comparison is equality of the
triple, comparison by value (`Comparator<Variable>`) is equality of name and size. A `Node *` is
represented by the variable of the node (a model holds at most one node per variable pointer);
a `Connection *` by the pair (owner, neighbour); a factor pointer by a natural number (its
address) into an explicit heap. Following a pointer to something that was erased gives `ub`.

Hash containers. `unordered_map`/`unordered_set` are association lists / lists without repetition.
Their iteration order is not specified by C++: the operations take the order as an argument (`ord`,
`sh`, `VisitOrder`, `ImportOrder`: functions which permute the list that is iterated) and the theorems
quantify over all of them, so no result depends on the order chosen.

Executions. `Reach allowed s` (Spec/Exec.lean) says that the state `s` of a model is reached from a new
model by a sequence of public operations (`GOp`: insertions, evidences, queries, sampling, weights,
gradients, thread pool, changes of factors outside and inside the model, copies from another model),
some of which may throw, each allowed by the predicate `allowed`. Two things are excluded and stated in
the definition: a `removeEvidences` which throws midway ends the execution (its result is
`C19_violated`), and `replaceVariables` is not called on a factor after its insertion (the model would
keep the old variables). Stronger predicates (`Prudent`, `Steady`, ...: Spec/Prudent.lean) leave out the
operations after which the library itself has stale data; the theorems which need them are `_partial`
and the excluded operations have their `_violated` theorem.

Loops. The loops of the C++ code which end for a reason that is not structural (propagation rounds,
clusters, odometer) are recursions with a bound; equation lemmas show that the bound is never what ends
them, or the theorem is about the loop without bound.

Threads. `Pool` is modelled as a small step transition system, one step per atomic access, and the
theorems quantify over all interleavings. Elsewhere parallel rounds are executed in an arbitrary
order (`sched`); Spec/Race.lean splits every task in its reads and its writes, and C29 shows that any
interleaving of reads and writes gives the result of the sequential execution. The same is done for the
Gibbs sampler (C38).

## 3. What is modelled, and what is not

| code | model | not modelled or simplified |
|------|-------|-----------------|
| `categoric/Variable`, `Group`, `GroupRange.h` | Model/Categoric, Range | |
| `factor/Function`, `Immutable`, `Mutable`, `ImageFinder` | Model/Function, Factor, Word | load factor and buckets of the hash map |
| `factor/Factor`, `FactorExponential` | Model/Factor, Heap | |
| `structure/SpecialFactors` | Model/Special | |
| `structure/Types`, `bases/StateAware`, `bases/FactorsAware`, `EvidenceManager`, `FactorsConstManager` | Model/Graph, Evidence, Insert | memory order of the nodes |
| `structure/bases/BeliefAware`, `BaselineLoopyPropagator`, `QueryManager` | Model/Belief, Query, Names, Report; Strategy (a strategy set by the user, any function of the model, Model/Strategy) | threads a strategy of the user may start and leave running |
| `structure/bases/PoolAware` | Model/Pool | a task which throws in a worker (`std::terminate`), spurious wake ups are busy waiting steps |
| `structure/GibbsSampler` | Model/Gibbs | the engines: every draw is an arbitrary element of `[0,1)`, in C56 the draws are independent and uniform; the seeds come from an arbitrary clock |
| `trainable/TrainSet`, `FactorsTunableManager`, `tuners/*` | Model/Train | |
| `model/Graph`, `RandomField`, `ConditionalRandomField`, `HiddenObservedTuner` | Model/Models | moved-from objects |
| `io/TrainSetImport`, `io/Utils` | Model/Text | files are lists of characters, C locale, errors of the stream; `atoi`/`atof` on digits |
| `io/json/Exporter`, `Importer` | Model/Json | the document is a tree; its text is not modelled, apart from `dump` of scalars, which the importer calls |
| `io/xml/Exporter`, `Importer` | Model/Xml | the external library: a file is the tree of its tags, its text is not modelled; it is assumed to give back attributes with the same name in the order in which they were added and the nested tags in any order (`Tag.Reordered`, Spec/Xml) |
| `trainable/ModelTrainer` | Model/Trainer | the external optimiser is any program which makes finitely many calls and may depend on the answers; the conversions between `float` and `double` are arbitrary functions |

Also not modelled:
* overflow of `float` (C58_range_partial and C59_range_partial prove that none occurs under their hypotheses), its rounding apart from C58 and C59 (see Arithmetic above), and wrap-around of `size_t` outside of `Model/Word.lean` (C60: no wrap-around in the functions of a factor with less than 2^64 combinations);
* memory exhaustion, `std::bad_alloc`; the end of the program when a task throws in a worker (no task does, `C52_workers_partial`);
* `Cache::reset()` with no argument forms a reference from a null `unique_ptr` (formally undefined,
  misc/Cache.h:18-22); the model treats it as a plain reset.

How exactness is stated. `State.weight φ a` (Spec/Weight.lean) is the product of the images of the
factors at the assignment `a`; marginals and maximum a posteriori estimates are compared with sums and
maxima of it over all assignments which agree with the evidences. `fill_message` uses the transposed
factor, so C25 and C26 have a theorem about the code as it is (exact for the weight with transposed
factors between hidden variables) and the wanted one for factors which are symmetric. For MAP the
maximum starts at `FLT_MIN`; the theorem needs images above it.

## 4. Plan per property

| id | what is modelled | how it is proved |
|----|------------------|------------------|
| C01 | `Variable::Variable` | decision logic, both directions |
| C02 | `Group` constructors, `add`, `replaceVariables`, `size` | invariant over all call sequences; the documented "different names" and the absence of UB are refuted by witnesses, so partial |
| C03 | `GroupRange` with its optional data and `operator++`, `for_each_combination` | the odometer is shown to enumerate the lexicographic list; membership, no duplicates, order, count, end |
| C04 | `Function::set`/`findImage`, sparse and dense storage, hasher, `Mutable::set` | refinement to a finite map by induction on the write history; injectivity of the mixed radix hash |
| C05 | `Mutable::set` | decision logic |
| C06 | `forEachCombination` both branches | equality with a map over the lexicographic list |
| C07 | `forEachNonNullCombination` both branches | proved for the dense branch and for stores without explicit zeros; witness for the violation |
| C08 | `Immutable::getProbabilities` | ordered field algebra |
| C09 | `gather_variables`, merging constructor, `ImageFinder` | refinement to a product of functions of assignments, any order |
| C10 | `cloneWithPermutedGroup` | as functions of assignments; iff for the throw |
| C11 | correlated and anti-correlated functions | pointwise characterisation |
| C12 | `FactorExponential`, transformed clone | pointwise characterisation |
| C13 | copies of factors in a heap of function objects | frame property over mutation sequences |
| C14 | `MergedUnaries` | characterisation; witness for NaN on contradictions, so partial |
| C15 | `Evidence` | pointwise characterisation for both variable orders |
| C16, C17 | `fill_message`, `MessageSUM`, `MessageMAP` | the code is shown to compute the transposed factor; refuted in general, proved for symmetric factors (and, for MAP, floor not active) |
| C18, C19, C23 | whole model state and every operation | invariants by induction over operation sequences |
| C20, C21, C22 | evidence and insertion operations | decision logic plus frame; violations by witness |
| C24 | `message_passing` rounds | completed iff acyclic (Mathlib `SimpleGraph.IsAcyclic`), termination by construction |
| C25, C26 | propagation and queries | fixed point equations of the messages plus leaf elimination on forests, generic in the reducer |
| C27 | query of an observed variable | direct |
| C28 | caches (`merged_unaries`, `connectivity`, `lastPropagation`, stored evidence messages) | cache coherence invariant; violated by `setWeights`, witness |
| C29 | rounds executed in any order | commutation of tasks, disjoint footprints |
| C30, C31 | `compute_loopy_order`, `BaselineLoopyPropagator` | permutation, conflict freedom, loop semantics |
| C32 | `Pool` transition system | inductive invariant over all interleavings; start-up race refuted by a schedule |
| C33 | `std::optional<Pool>` life cycle | witness of the violation, partial for positive thread numbers |
| C34 | joint marginal | proved for groups joined by factors of their own with at most one observed member and symmetric factors; several observed members, groups that are not joined and factors that are not symmetric refuted; for groups that are not joined the answer is the product of those of the pieces (`Pieces`, Spec/Joint) |
| C35, C36, C38 | Gibbs sampler | invariants for arbitrary draws |
| C37 | Gibbs update kernel | equality with the full conditional, invariance of the model distribution |
| C39 | `TrainSet` | direct |
| C40, C42, C43 | tunable factors, tuners | invariants; violations by witness |
| C41 | tuners, gradient | proved for executions without stale values, no cycles and symmetric factors: expectation form over any ordered field, `HasDerivAt` of the average log-likelihood over the reals; stale products of unary factors and factors that are not symmetric refuted |
| C44, C45, C49 | conditional random field | decision logic; violations by witness |
| C50 | conditional random field, gradient | the loop over the samples sets the evidences again, which renews what depends on them (invariant `Half`); then as C41 with the observed variables fixed; four conditions shown to be needed by witnesses |
| C51 | `train_model` with any optimiser | the calls as a relation independent of the program (Spec/Trainer), shown to be the only one; invariant `Training` over the calls, then C41 and C50 at every state in which a gradient is asked; stale products, empty batches, NaN percentages and no threads refuted |
| C52 | every operation of a model | invariants `Healthy` and `Tuned` of the reachable states give every read of the queries, the gradient and the sampler a value; for any arithmetic, with or without cycles; the conditions on the operands are in Spec/Safety |
| C46, C47 | text import | round trip refuted by witness; exact description of what is returned |
| C48 | json export/import as trees | round trip for models that satisfy the listed conditions, witnesses otherwise |
| C53 | xml export/import as trees of tags | round trip for every reordering of the tags; same way of inserting the factors as C48, with factors put aside until the others are there |
| C54 | json/xml import of documents the exporter did not write | every step of the import is a public operation or keeps the model (`Goes`, `Runs`, `Brings`); conditions for definedness stated on the document alone (`FitsInt`, `Complete`) |
| C55 | json/xml import, meaning of the document | `Spec/Document.lean` gives the meaning of a document without the importer (`Says`, `SaysVar`, `SaysObserved`, `Denotes`), proved to be unique; the items are read one at a time, inserted (`Lodged`), and what is inserted stays until the end (`Later`) |
| C56 | Gibbs sampler, law of the samples | `Spec/GibbsLaw.lean`: engines which draw independent uniform numbers, the event that a sample passes a test, the expected probability. The combination is followed through the tasks as a random variable (`Follows`, `Lemmas/GibbsLaw.lean`): each task applies the kernel which redraws one variable from its conditional distribution (C37), which keeps the distribution of the model and contracts the distance from it over a sweep (`Lemmas/Sweep.lean`); the second moment of the frequency is bounded from the laws of pairs of samples (`Lemmas/Frequency.lean`) |
| C57 | clusters | `Spec/Cluster.lean`: the factors of a cluster and their product. The propagation inside a component is exact for the factors of the component (`Tree.exact_component`, the constant left by the other components is 1), and if all the products are zero some merged factor, message or gathered product is NaN, which spreads to every variable of the cluster (`Lemmas/Nan.lean`, `Lemmas/Component.lean`) |
| C58 | rounding | `Spec/Rounding.lean`: the standard model of floating point arithmetic, `Near u k` (the two numbers differ as after `k` roundings) and the number of roundings, linear in the size of the cluster. The recursion of the exact theorem is run a second time with the errors beside the values; the number of roundings of a message is bounded by the exponent of 2 which the same recursion gives for factors equal to powers of 2 (`Lemmas/Near.lean`, `Lemmas/Tally.lean`, `Lemmas/Rounded.lean`). The same recursion carries the range of every intermediate result (`Spans`, `State.Ranged`), so that the bound also holds for roundings with a bounded error between `1 / H` and `H` only: the normalization keeps the messages in a range which does not depend on the number of variables |
| C59 | rounding, MAP | `NearlyBest` (`Spec/Rounding.lean`): an assignment which weighs at least `t` times any other. The recursion of C58 is generic in the reduction (sum or maximum), so the beliefs of the MAP have the same errors; the largest belief is then nearly the largest of the true maxima |
| C60 | the computations with `std::size_t` of `Group::size`, `make_info`, the hasher, `set`, `findImage`, anti-correlated factors (Model/Word) | the same functions modulo `N`; simulation by the functions on natural numbers when the number of combinations is less than `N`; general refutation when it is a multiple of `N` |
| C61 | getWeightsGradient, setWeights | `logLikelihood`, `conditionalLogLikelihood`, `reweighed` of C41 and C50. The weight of an assignment after setting all the weights is the old one times the exponential of a linear function of the differences; then the inequality between the logarithm of an expectation of an exponential and the expectation of the exponent |
| C62 | Graph/RandomField/ConditionalRandomField absorb, operations of a ConditionalRandomField, train_model | the absorbing loops keep a reachable receiver whose pointers are valid, so the edits of C52 never read past a container; the invariant `Running` (that of C52) and `Equipped` (the tuners fit, one position for each evidence) hold along `CrfReach`; the conditions on the operands are in Spec/CrfSafety |
| C63 | the queries, propagateBelief | `Spec/Repeat.lean`: the outcomes of all the queries are equal. The messages of a cluster are a function of the factors, of the merged unary factors and of the messages (`SameFor`), a preparation of a prepared cluster changes nothing, so a propagation after another one leaves the state it would have left alone (`checkPropagation_again`, `Lemmas/RepeatRun.lean`) |
| C64 | the queries, BaselineLoopyPropagator | `Spec/Repeat.lean`: the outcomes with two pairs (schedule, number of threads) are equal. The groups made for two or more threads do not read what they write, so the messages and variations of a group are those computed from the state before it (`loopyTasks_round`); the test of convergence only asks whether all the variations pass (`Calm`), so it is the same however they are split over the threads (`Lemmas/LoopySame.lean`) |
| C65 | setLoopyPropagationStrategy, propagateBelief, the queries | `Spec/Strategy.lean`: a strategy is any function of the model; `Careful` says what it may write. The outcomes of the queries are compared with those of the default strategy (`Lemmas/Strategy.lean`: a cluster reported as a tree never reaches the strategy; the messages of a cluster without cycles are determined by the rest of the model, `Exact.unique`) |
| C66 | hasPropagationResult, getLastPropagationResult (Model/Report) | `Spec/Report.lean`: the groups of linked hidden variables, with no reference to the clusters of the model. Invariant over all operations (`Lemmas/Report.lean`): each one forgets the report, keeps it with the hidden variables and their joins, or makes a new one which is right by C24; partial because of the empty optional |
| C67 | the overloads by name of the evidences and queries (Model/Evidence, Query, Names) | refinement of the overloads which take variables, for any state; in reachable states the effect is also stated on the evidences, for the first inserted variable of that name; partial because names need not be unique. The queries by name which are not operations of `GOp` (getMAP, joint) have by these theorems the outcomes of operations of `GOp` or change nothing |
| C68 | setEvidence followed by the queries (Model/Evidence, Query) | the answers of the library in two states of the model, against each other: law of total probability, theorem of Bayes, chain rule; exact arithmetic, clusters without cycles, symmetric factors |
| C69 | the queries of two models (Model/Query, Spec/Law) | equality of the answers of two reachable models whose products of factors are proportional, with the ties of the MAP; exact arithmetic, clusters without cycles, symmetric factors |
| C70 | changes of inserted factors (Model/Heap, Spec/Changed) | the marginals, MAP values and joint distributions after `set` and `clear` on a factor of the model of which nothing is cached; on any arithmetic, no change after a query is noticed |
| C71 | the marginals and joint distributions on every graph (Spec/Sign) | invariant of every operation: no stored image is negative, in every arithmetic whose operations keep the sign (Lemmas/Sign, Lemmas/SignState); with positive images every message of every iteration is positive (Lemmas/Positive), which also closes the gap of C31 for them |
| C72 | the marginals, MAP values and joint distributions on every graph, two models compared (Spec/Scale) | relation between two executions of the propagation: every message of the one is a positive multiple of the corresponding message of the other, and the normalisations and the convergence test do not see it (Lemmas/Scale, Lemmas/ScaleRun, Lemmas/ScaleGraph); the contributions to a joint distribution are then proportional one by one (Lemmas/ScaleJoint); exact arithmetic |
| C73 | the joint distributions against the marginals: of one variable on every graph, of several variables without cycles | the two reads of one state after the propagation (Lemmas/JointSingle): a variable alone has no inner edges, and its contributions are those which the marginal merges; positivity (Lemmas/Positive) keeps the normalisation away from 0/0; for several variables both are sums of the product (C25, C34) and the masses are summed over the members (Lemmas/JointSummed); exact arithmetic |

## 5. Defects of the code found while modelling

Each is proved by a theorem named `..._violated` where one is given.

Factors
1. `Group` accepts variables with equal names and different sizes; `replaceVariables` can read out of range (`C02_same_name_violated`, `C02_replace_ub_violated`).
2. `forEachNonNullCombination` visits explicit zeros of the sparse representation (`C07_violated`).
3. `MergableFunction::normalize` divides by zero when all products vanish (`C14_violated`).
4. `fill_message` (structure/SpecialFactors.cpp:142-164) swaps the positions of sender and receiver: messages use the transposed factor (`C16_violated`, `C25_violated`), and read out of range for different sizes (`C16_sizes_violated`).
5. `MessageMAP` starts its maximum from `FLT_MIN` instead of 0 (`C17_violated`, `C17_zero_violated`, `C26_violated`). So the MAP values depend on the scale of the factors (`C72_map_violated`), which the marginals do not (`C72_proportional`).

Structure
6. `removeEvidence_` (structure/EvidenceManager.cpp:70-85) re-activates connections towards variables that are still observed (`C21_violated`).
7. `removeEvidences` leaves variables neither hidden nor observed when it throws midway (EvidenceManager.cpp:96-105; `C18_violated`, `C19_violated`).
8. A refused binary insertion can leave a new variable behind (`C22_violated`).
9. `replaceVariables` on a factor which was inserted desynchronises the model (excluded from the executions).
10. A factor between variables of different sizes is accepted, and then every propagation reads its images out of range (consequence of 4; `C24_violated`, `C27_violated`).
11. Variations of messages which are not numbers count as below the tolerance, so a propagation with NaN messages is reported as completed (`C31_violated`).
12. `getJointMarginalDistribution` (structure/QueryManager.cpp:116-137) keeps pointers into a growing `std::vector<Indicator>`, so two observed members are undefined behaviour (`C34_observed_violated`). For two hidden variables with others between them it returns the product of two functions (`C34_apart_product`, `C34_apart_violated`); in general it treats the parts of the group which no factor joins as if they were independent (`C34_pieces_partial`). A factor that is not symmetric is read transposed by the messages, but not when both its variables are in the group (`C34_transposed_violated`, `C34_transposed_partial`), so the joint and the marginal distributions may disagree.

Threads
13. `Pool::Worker` starts its thread before initialising `to_process` (`C32_violated`).
14. `setPoolSize(0)` leaves the optional pool empty; the next use dereferences it (`C33_violated`, `C35_violated`).
15. A task which throws in a worker ends the program. In the model the exception of a task is the exception of the operation; no task throws after prudent operations (`C52_workers_partial`).

Sampling
16. `sampleFromDiscrete` can return a value of probability zero for the draw 0 (`C36_violated`).
17. The sampler uses stale messages of the observed variables after `setWeights` (`C37_violated`).

Training
18. A percentage which is not a number is accepted by `TrainSet::Iterator` and its conversion is undefined (`C39_violated`).
19. `addTunableFactor` with an unknown sharing group throws after inserting the factor (`C42_violated`); with a known one it changes the weight after the insertion, so that the data derived from the factor are stale. The weight of an inserted factor can be changed by its creator, also against the sharing (`C40_violated`).
20. `setWeights` (trainable/FactorsTunableManager.cpp:54-62) leaves merged unary factors and stored evidence messages stale (`C28_violated`), so that the gradient which a training computes after its first step uses the old weights of the unary factors (`C41_stale_violated`). The gradient also reads factors that are not symmetric transposed (`C41_transposed_violated`; `C41_transposed_partial` says which ones for which tuner). `train_model` inherits this: its second gradient uses the old weight (`C51_stale_violated`).
20a. `train_model` checks the percentage at the first gradient only (`C51_percentage`); a percentage of less than one sample gives the gradient of no samples, so that the training goes away from the data (`C51_empty_violated`); a percentage which is not a number is undefined behaviour (`C51_nan_violated`); with no threads it throws and leaves the model without a pool (`C51_threads_violated`).
20b. The training set only checks that its samples have the same length; shorter ones than the variables of the model make the gradient read past their end (`C52_samples_violated`).

Models
21. `absorbTunableClusters` can attach factors to the wrong sharing cluster (`C43_sharing_violated`); with `copy = false` it then also alters the weights of the source.
22. A factor which was inserted by a refused `addTunableFactor` is lost by the copy (`C43_refused_violated`).
23. A variable without factors is lost by the copy, or makes the copy of the evidences throw (`C43_isolated_violated`, `C44_isolated_violated`).
24. `ConditionalRandomField::setEvidences` assigns the values in the iteration order of a map, `getObservedVariables` returns another order (`C44_order_violated`, `C45_order_violated`); the gradient reads the samples in a third one (`C50_order_violated`).
25. The evidences of a conditional random field are set by name, which confuses variables with the same name (`C44_names_violated`).
26. `evidence_vars_positions` are computed on the order of the variables of the source, the tuners on the order of the copy, so that the gradient takes the value of another variable (`C50_positions_violated`). The gradient also reads factors that are not symmetric transposed (`C50_transposed_violated`; `C50_transposed_partial` gives the value it computes), and from the second step on it uses old weights of hidden variables which are not joined to observed ones (`C50_stale_violated`).
27. `makeTrainSet` divides by zero for small percentages (`C45_small_violated`).

Input and output
28. `import_train_set` returns all zero combinations and drops the last column (`C46_violated`).
29. `for_each_line`: an empty line, for instance after the last newline, is undefined behaviour (`C46_newline_violated`, `C47_violated`).
30. json: images are rounded to six decimals (`C48_precision_violated`), names with escapes are not restored (`C48_escape_violated`), isolated variables are lost or make the import throw (`C48_isolated_violated`), models with equal names of different sizes cannot be read (`C48_names_violated`), factors are attached to the wrong sharing cluster (`C48_sharing_violated`).
31. xml: same defects as json in precision, isolated variables and equal names (`C53_precision_violated`, `C53_isolated_violated`, `C53_names_violated`). The nested tags and the attributes are in an `unordered_multimap`, whose order is not specified: the sharing of the weights may depend on the order of the tags (`C53_sharing_violated`), and the values of a combination are told apart only by the order of attributes with the same name (`C53_order_violated`).
32. import: a document without "Variables" or "Potentials", or an image without "v", is undefined behaviour instead of an error, because the keys are looked up in a constant value (`C54_keys_violated`); so are numbers out of the range of `int` (`C54_numbers_violated`), and a file of values which ends with a newline or has a blank line (`C54_lines_violated`). A document refused half way leaves its first factors in the model, even a tunable one without tuner (`C54_refused_violated`). A document naming a variable of the model is always refused, because the importer makes its own variables and the graph compares addresses.
33. Gibbs sampler: without a seed each engine is seeded with the time in seconds (GibbsSampler.cpp:14-17), all of them when the vector of engines is resized (:106), so with several threads they draw the same numbers and the samples of independent variables are equal (`C56_clock_violated`).
34. Gibbs sampler: the sampling starts from zeros and redraws one variable at a time, so with factors which can be zero it may never leave a part of the combinations, of any probability (`C56_zero_violated`). It is a limit of the method, not documented by the code.
35. `getHiddenSetMAP` takes the best value of each variable separately: with ties the combination may not be a most probable one (`C26_ties_violated`).
36. The uniform fallback of `Immutable::getProbabilities` (Immutable.cpp:31-36) is not reached by the marginals of a contradictory cluster: `normalize` (SpecialFactors.cpp:54-59) has already multiplied zero by the inverse of zero, and the marginals of the whole cluster are NaN (`C57_uniform_violated`). See 3.
37. `MergedUnaries` multiplies all the factors of a variable before it normalizes the product (SpecialFactors.cpp:69-76): products below the smallest `float` become zero and the marginals NaN, also when the factors are far from contradictory; two factors with images 2⁻⁸⁰ are enough (`C58_underflow_violated`). `C58_range_partial` says how far the images may be from 1 for this not to happen.
38. With the rounding of `float`, `getMAP` does not always return a most probable value: two values whose products differ by less than half a unit in the last place tie, and the first is returned (`C59_exact_violated`). The loss is bounded by C59.
39. The number of combinations of a group is computed with wrap-around (`Group.cpp:60-66`, `Function.cpp:14-20`). When it is a multiple of 2^64 (64 variables with two values, two variables with 2^32 values) it is taken for zero, and the sixth `set` of a factor over the group copies the images in an empty vector: undefined behaviour (`C60_set_violated`). The constructor of an anti-correlated factor over such a group does the same at once (`C60_anti_violated`).
40. The positions at which `ConditionalRandomField` reads the evidences in a sample are those of the variables of the source (`ConditionalRandomField.cpp:20-31`). If a variable of the source is not in any factor which is copied (for example one left by a refused insertion), the conditional random field has fewer variables, and the gradient reads past the end of a sample with one value for each of them: undefined behaviour (`C62_positions_violated`).
41. `setPropagationContext` (BeliefAware.h:39) does not reset the last propagation. After a query, a change of the number of iterations has no effect on the following queries of the same kind, until a query of the other kind is made (`C63_iterations_violated`). On clusters with cycles the answers also depend on the number of threads, because the order of the messages does (`C63_threads_violated`).
42. `setLoopyPropagationStrategy` (BeliefAware.cpp:17-23) does not reset the last propagation either: a strategy set after a query is not used until a query of the other kind is made or the model changes (`C65_stale_violated`).
43. `propagateBelief` (BeliefAware.cpp:76-114) resets the messages first and writes `lastPropagation` last. If a strategy of the user throws, the model keeps the result of the propagation before. When the exception is caught, the next query of the kind asked before finds that nothing has to be propagated and dereferences messages which are absent (`C65_throw_violated`).
44. `getLastPropagationResult` (BeliefAware.h:42-44) dereferences an optional which is empty in a new model and after every accepted change of factors, weights or evidences: the behaviour is undefined (`C66_absent_violated`, `C66_changed`). The caller must ask `hasPropagationResult` first, which is not documented.
45. For a cluster with cycles the messages are computed in the order of the nodes of the cluster (`BaselineLoopyPropagator.cpp:57-62`), which depends on the order of the insertions and on the addresses of the nodes, and the iterations may end before the messages have converged. Two models with the same factors, inserted in two orders, give different marginals (`C28_cycles_violated`).
46. A model accepts two variables with the same name and different sizes, and `findVariable` (StateAware.cpp:14-24) returns the first inserted one: by name the other one can not be observed, released or asked for (`C67_violated`).
47. A factor which is not symmetric is read transposed while both of its variables are hidden and as it is once one of them is observed, so the answers before and after an evidence do not belong to one distribution: the marginal of X is 2/5, 3/5 and the average of those given Y is 37/120, 83/120 (`C68_violated`).
48. For the same reason two ways to write one distribution give different answers: one factor of X and Y with the images 1, 1, 3, 3 gives X the marginal 1/2, 1/2, and a factor of X with the images 1, 3 besides a constant factor of X and Y gives 1/4, 3/4 (`C69_violated`).
49. The model keeps the pointer given to `addConstFactor` and `addTunableFactor`, so that the caller can still change the factor, and nothing tells the model: after a query, every change of every factor is ignored by the next query of the same kind (`C70_unnoticed_marginal`, `C70_unnoticed_map`, `C70_violated`), while before the first query it is seen (`C70_set_partial`). A joint distribution reads again the factors which join two variables of its group, and only these (`C70_unnoticed_joint`): after a change it may contradict the marginal asked just before (`C70_joint_violated`).
50. A factor which vanishes at all the values of a variable makes the marginals of its cluster NaN instead of a distribution, also those of the other variables, and nothing is reported (`C71_violated`; `C71_any_partial` says that this is the only way in which a returned marginal fails to be a distribution).
51. The two ways of asking for distributions do not agree in general. For a cluster whose product is null the marginal is made of NaN and the joint distribution of the same variable is made of zeros (`C73_null_violated`); on a graph with cycles the joint distribution of two variables, summed over one of them, is not the marginal of the other, also with positive factors (`C73_pair_violated`). For one variable and positive factors they agree on every graph (`C73_single_partial`), and for several variables without cycles (`C73_summed_partial`), also when the members are not joined inside the group and the joint distribution itself is wrong (finding about `C34_apart_violated`). The factor of a joint distribution is only proportional to it, its images may sum to more than 1 (`C73_scale_violated`), although the header says it represents the joint distribution: `getProbabilities` of it is the distribution.

## 6. Axioms per theorem

As printed by `#print axioms` (written by `tools/axioms.py`).

* none: `C02_replace_refused`, `C02_replace_ub_violated`, `C03_copy`, `C65_null`

* `propext`: `C22_null`, `C39_everything`, `C40_refused`, `C44_no_evidence`, `C45_percentage`, `C46_missing`, `C47_missing`, `C51_threads_violated`, `C51_percentage`, `C60_size`

* `propext`, `Quot.sound`: `C02_add_refused`, `C09_throws_empty`, `Pool.C32_violated`, `C43_weights`, `C51_nan_violated`, `C67_unknown`

* `propext`, `Classical.choice`, `Quot.sound`: `C01_makeVariable`, `C01_observable`, `C02_group_partial`, `C02_ofSoup`, `C02_replace_accepts`, `C02_replace_result`, `C02_same_name_violated`, `C03_visit`, `C03_increments`, `C03_equal`, `C04_set`, `C04_new`, `C04_clear`, `C05_set_refuses`, `C06_forEach`, `C07_nonNull_partial`, `C07_exact_partial`, `C07_violated`, `C08_probabilities`, `C09_merge`, `C09_order`, `C09_throws_instances`, `C10_permuted`, `C10_throws`, `C11_correlated`, `C11_antiCorrelated`, `C11_throws`, `C12_exponential`, `C12_setWeight`, `C12_copy`, `C12_cloneTransformed`, `C12_mutations`, `C13_copy_same`, `C13_copy_independent`, `C14_merged_partial`, `C14_violated`, `C15_evidence`, `C16_sum_partial`, `C16_swapped_partial`, `C16_violated`, `C16_sizes_violated`, `C16_sizes2_violated`, `C17_map_partial`, `C17_swapped_partial`, `C17_violated`, `C17_zero_violated`, `C18_clusters_partial`, `C18_violated`, `C19_hidden_xor_observed_partial`, `C19_violated`, `C20_setEvidence`, `C20_conditions`, `C20_conditions_again`, `C21_removeEvidence_partial`, `C21_removeAllEvidences`, `C21_removeEvidences_partial`, `C21_violated`, `C22_refused_partial`, `C22_refused_known_partial`, `C22_violated`, `C23_register`, `C23_accepted`, `C23_unchanged`, `C24_trees_recognised_partial`, `C24_violated`, `C25_transposed_partial`, `C25_marginals_exact_partial`, `C25_violated`, `C26_transposed_partial`, `C26_map_exact_partial`, `C26_hidden_set_partial`, `C26_violated`, `C26_ties_violated`, `C27_observed_marginal_partial`, `C27_observed_map_partial`, `C27_total_partial`, `C27_violated`, `C28_same_marginal_partial`, `C28_same_map_partial`, `C28_violated`, `C28_cycles_violated`, `C29_rounds_partial`, `C29_same_messages_partial`, `C30_schedule`, `C31_convergence_partial`, `C31_positive_partial`, `C31_queries_return_partial`, `C31_violated`, `Pool.C32_calls_partial`, `Pool.C32_once_partial`, `Pool.C32_returns_partial`, `Pool.C32_destroyed_partial`, `C33_zero_threads_partial`, `C33_violated`, `C34_transposed_partial`, `C34_joint_partial`, `C34_pieces_transposed_partial`, `C34_pieces_partial`, `C34_divided`, `C34_observed_violated`, `C34_apart_product`, `C34_apart_violated`, `C34_transposed_violated`, `C35_samples_partial`, `C35_model_kept_partial`, `C35_violated`, `C36_in_range`, `C36_interval_partial`, `C36_positive_partial`, `C36_violated`, `C37_full_conditional_partial`, `C37_every_variable`, `C37_invariant_partial`, `C37_violated`, `C38_race_free`, `C38_once`, `C38_schedule`, `C38_completes`, `C39_rectangular`, `C39_subset_partial`, `C39_refused_partial`, `C39_violated`, `C40_roundtrip`, `C40_weights`, `C40_shared_partial`, `C40_violated`, `C41_transposed_partial`, `C41_gradient_partial`, `C41_derivative_partial`, `C41_stale_violated`, `C41_transposed_violated`, `C42_throws`, `C42_refused_partial`, `C42_violated`, `C43_graph_partial`, `C43_field_partial`, `C43_weight`, `C43_sharing_violated`, `C43_refused_violated`, `C43_isolated_violated`, `C44_make_partial`, `C44_sound`, `C44_evidences_partial`, `C44_order_violated`, `C44_isolated_violated`, `C44_names_violated`, `C45_all_partial`, `C45_some_partial`, `C45_small_violated`, `C45_order_violated`, `C46_violated`, `C46_returned`, `C46_lengths_partial`, `C46_newline_violated`, `C47_values_partial`, `C47_invalid_partial`, `C47_violated`, `C48_field_partial`, `C48_graph_partial`, `C48_weight`, `C48_precision_violated`, `C48_escape_violated`, `C48_isolated_violated`, `C48_names_violated`, `C48_sharing_violated`, `C49_locked`, `C49_keys`, `C49_observed`, `C50_transposed_partial`, `C50_gradient_partial`, `C50_derivative_partial`, `C50_order_violated`, `C50_positions_violated`, `C50_transposed_violated`, `C50_stale_violated`, `C51_calls`, `C51_crf_calls`, `C51_weights`, `C51_crf_weights`, `C51_gradient_partial`, `C51_crf_gradient_partial`, `C51_derivative_partial`, `C51_crf_derivative_partial`, `C51_batch_partial`, `C51_empty_violated`, `C51_stale_violated`, `C52_edits_defined`, `C52_defined_partial`, `C52_workers_partial`, `C52_programs_defined_partial`, `C52_samples_violated`, `C53_field_partial`, `C53_graph_partial`, `C53_precision_violated`, `C53_isolated_violated`, `C53_names_violated`, `C53_sharing_violated`, `C53_order_violated`, `C54_json`, `C54_json_defined_partial`, `C54_json_prudent_partial`, `C54_xml`, `C54_xml_defined_partial`, `C54_xml_prudent_partial`, `C54_keys_violated`, `C54_numbers_violated`, `C54_lines_violated`, `C54_refused_violated`, `C55_json`, `C55_xml`, `C56_law_partial`, `C56_frequency_partial`, `C56_limit_partial`, `C56_zero_violated`, `C56_clock_violated`, `C57_transposed_partial`, `C57_cluster_partial`, `C57_local_partial`, `C57_uniform_violated`, `C58_transposed_partial`, `C58_rounded_partial`, `C58_error_partial`, `C58_range_transposed_partial`, `C58_range_partial`, `C58_underflow_violated`, `C59_transposed_partial`, `C59_map_rounded_partial`, `C59_range_partial`, `C59_margin_partial`, `C59_hidden_set_partial`, `C59_exact_violated`, `C60_set_partial`, `C60_anti_partial`, `C60_set_violated`, `C60_anti_violated`, `C61_optimum_partial`, `C61_crf_optimum_partial`, `C62_copy_defined`, `C62_make_defined`, `C62_operations_defined_partial`, `C62_positions`, `C62_training_defined_partial`, `C62_crf_training_defined_partial`, `C62_positions_violated`, `C63_repeat_partial`, `C63_threads_violated`, `C63_iterations_violated`, `C64_threads_partial`, `C64_mixed_partial`, `C65_forest_partial`, `C65_mixed_partial`, `C65_defined_partial`, `C65_stale_violated`, `C65_throw_violated`, `C66_report_partial`, `C66_sizes_partial`, `C66_query_partial`, `C66_changed`, `C66_absent_violated`, `C67_named_partial`, `C67_several_partial`, `C67_first_set`, `C67_first_remove`, `C67_violated`, `C68_total_partial`, `C68_bayes_partial`, `C68_violated`, `C69_marginal_partial`, `C69_map_partial`, `C69_joint_partial`, `C69_violated`, `C70_unnoticed_marginal`, `C70_unnoticed_map`, `C70_set_partial`, `C70_clear_partial`, `C70_violated`, `C70_unnoticed_joint`, `C70_set_map_partial`, `C70_clear_map_partial`, `C70_set_joint_partial`, `C70_clear_joint_partial`, `C70_joint_violated`, `C71_sign`, `C71_joint`, `C71_rounded`, `C71_any_partial`, `C71_marginal_partial`, `C71_positive`, `C71_violated`, `C71_joint_positive_partial`, `C72_proportional`, `C72_map_partial`, `C72_hidden_set_partial`, `C72_elsewhere`, `C72_elsewhere_map`, `C72_map_violated`, `C72_joint_partial`, `C72_elsewhere_joint_partial`, `C73_single_partial`, `C73_null_violated`, `C73_scale_violated`, `C73_pair_violated`, `C73_summed_partial`, `C73_summed_observed_partial`
