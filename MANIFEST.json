{
 "claims": [
  {
   "property": "C01",
   "status": "proved",
   "theorems": [
    "EFG.C01_makeVariable",
    "EFG.C01_observable"
   ],
   "note": "Decision logic of make_variable, both directions."
  },
  {
   "property": "C02",
   "status": "partial",
   "theorems": [
    "EFG.C02_add_refused",
    "EFG.C02_replace_refused",
    "EFG.C02_group_partial",
    "EFG.C02_ofSoup",
    "EFG.C02_replace_accepts",
    "EFG.C02_replace_result",
    "EFG.C02_same_name_violated",
    "EFG.C02_replace_ub_violated"
   ],
   "note": "Invariant for all call sequences; the documented 'different names' and absence of undefined behaviour in replaceVariables are refuted by witnesses (equal names with different sizes are accepted; duplicates in the new list read out of range)."
  },
  {
   "property": "C03",
   "status": "proved",
   "theorems": [
    "EFG.C03_visit",
    "EFG.C03_increments",
    "EFG.C03_copy",
    "EFG.C03_equal"
   ],
   "note": "Odometer enumerates the lexicographic list, all sizes."
  },
  {
   "property": "C04",
   "status": "proved",
   "theorems": [
    "EFG.C04_set",
    "EFG.C04_new",
    "EFG.C04_clear"
   ],
   "note": "For every arithmetic F; refinement to a finite map over arbitrary write histories."
  },
  {
   "property": "C05",
   "status": "proved",
   "theorems": [
    "EFG.C05_set_refuses"
   ],
   "note": "For every arithmetic F."
  },
  {
   "property": "C06",
   "status": "proved",
   "theorems": [
    "EFG.C06_forEach"
   ],
   "note": "For every arithmetic F."
  },
  {
   "property": "C07",
   "status": "partial",
   "theorems": [
    "EFG.C07_nonNull_partial",
    "EFG.C07_exact_partial",
    "EFG.C07_violated"
   ],
   "note": "The sparse branch visits explicit zeros (C07_violated). Proved: nothing non zero is missed, no repetition, exact when no explicit zero is stored sparsely."
  },
  {
   "property": "C08",
   "status": "proved",
   "theorems": [
    "EFG.C08_probabilities"
   ],
   "note": "Exact arithmetic over any ordered field."
  },
  {
   "property": "C09",
   "status": "proved",
   "theorems": [
    "EFG.C09_merge",
    "EFG.C09_order",
    "EFG.C09_throws_instances",
    "EFG.C09_throws_empty"
   ],
   "note": "Exact arithmetic; any iteration order of the union of the variables."
  },
  {
   "property": "C10",
   "status": "proved",
   "theorems": [
    "EFG.C10_permuted",
    "EFG.C10_throws"
   ],
   "note": "For every arithmetic F."
  },
  {
   "property": "C11",
   "status": "proved",
   "theorems": [
    "EFG.C11_correlated",
    "EFG.C11_antiCorrelated",
    "EFG.C11_throws"
   ],
   "note": "For every arithmetic F."
  },
  {
   "property": "C12",
   "status": "proved",
   "theorems": [
    "EFG.C12_exponential",
    "EFG.C12_setWeight",
    "EFG.C12_copy",
    "EFG.C12_cloneTransformed",
    "EFG.C12_mutations"
   ],
   "note": "For every arithmetic F."
  },
  {
   "property": "C13",
   "status": "proved",
   "theorems": [
    "EFG.C13_copy_same",
    "EFG.C13_copy_independent"
   ],
   "note": "For every arithmetic F; heap of function objects."
  },
  {
   "property": "C14",
   "status": "partial",
   "theorems": [
    "EFG.C14_merged_partial",
    "EFG.C14_violated"
   ],
   "note": "Normalised product for every non-contradicting list; C14_violated: NaN when all products vanish."
  },
  {
   "property": "C15",
   "status": "proved",
   "theorems": [
    "EFG.C15_evidence"
   ],
   "note": "For every arithmetic F, both variable orders, any sizes."
  },
  {
   "property": "C16",
   "status": "partial",
   "theorems": [
    "EFG.C16_sum_partial",
    "EFG.C16_swapped_partial",
    "EFG.C16_violated",
    "EFG.C16_sizes_violated",
    "EFG.C16_sizes2_violated"
   ],
   "note": "The code uses the factor with its variables swapped: proved for symmetric factors, exact description otherwise; witnesses for asymmetric factors and for different sizes (undefined behaviour / missing entries)."
  },
  {
   "property": "C17",
   "status": "partial",
   "theorems": [
    "EFG.C17_map_partial",
    "EFG.C17_swapped_partial",
    "EFG.C17_violated",
    "EFG.C17_zero_violated"
   ],
   "note": "As C16; moreover the maximum starts from FLT_MIN, witness C17_zero_violated."
  },
  {
   "property": "C18",
   "status": "partial",
   "theorems": [
    "EFG.C18_clusters_partial",
    "EFG.C18_violated"
   ],
   "note": "Every reachable state; the state left by a throwing removeEvidences violates it (C18_violated)."
  },
  {
   "property": "C19",
   "status": "partial",
   "theorems": [
    "EFG.C19_hidden_xor_observed_partial",
    "EFG.C19_violated"
   ],
   "note": "Every reachable state, operations may throw; the state left by a throwing removeEvidences violates it (C19_violated)."
  },
  {
   "property": "C20",
   "status": "proved",
   "theorems": [
    "EFG.C20_setEvidence",
    "EFG.C20_conditions",
    "EFG.C20_conditions_again"
   ],
   "note": "Every reachable state (states left by a throwing removeEvidences excluded, see C19_violated); includes the conditioning of the neighbours."
  },
  {
   "property": "C21",
   "status": "partial",
   "theorems": [
    "EFG.C21_removeEvidence_partial",
    "EFG.C21_removeAllEvidences",
    "EFG.C21_removeEvidences_partial",
    "EFG.C21_violated"
   ],
   "note": "Exact decision and effect, for one variable, for a set of variables (C21_removeEvidences_partial) and for all; the observed neighbours of the released variable do not condition it any more (C21_violated)."
  },
  {
   "property": "C22",
   "status": "partial",
   "theorems": [
    "EFG.C22_refused_partial",
    "EFG.C22_refused_known_partial",
    "EFG.C22_null",
    "EFG.C22_violated"
   ],
   "note": "Exact decision; a refused binary factor whose first variable is new leaves that variable in the model (C22_violated)."
  },
  {
   "property": "C23",
   "status": "proved",
   "theorems": [
    "EFG.C23_register",
    "EFG.C23_accepted",
    "EFG.C23_unchanged"
   ],
   "note": "Every reachable state; order of the variables by accepted insertion, unchanged by all other operations."
  },
  {
   "property": "C24",
   "status": "partial",
   "theorems": [
    "EFG.C24_trees_recognised_partial",
    "EFG.C24_violated"
   ],
   "note": "Every arithmetic, every prudent execution, any orders, schedules and thread numbers: the reported flag is true exactly when the hidden graph has no cycle through the cluster, and propagation returns. C24_violated: with a factor between variables of different sizes the propagation reads out of range."
  },
  {
   "property": "C25",
   "status": "partial",
   "theorems": [
    "EFG.C25_transposed_partial",
    "EFG.C25_marginals_exact_partial",
    "EFG.C25_violated"
   ],
   "note": "Every prudent and steady execution, every numeric field: the marginal of a hidden variable of a cycle-free cluster is the normalised sum of the product of the factors over the other hidden variables, for symmetric hidden-hidden factors; for the other factors C25_transposed_partial gives the exact answer of the library (both values exchanged) and C25_violated shows that it differs from the marginal. Missing: asymmetric factors, factors changed when their images were already used; a zero total weight is covered by C57."
  },
  {
   "property": "C26",
   "status": "partial",
   "theorems": [
    "EFG.C26_transposed_partial",
    "EFG.C26_map_exact_partial",
    "EFG.C26_hidden_set_partial",
    "EFG.C26_violated",
    "EFG.C26_ties_violated"
   ],
   "note": "Every prudent and steady execution: getMAP gives the value of the variable in a most probable assignment for cycle-free clusters whose hidden-hidden factors are symmetric and not below the FLT_MIN floor, getHiddenSetMAP gives the assignment when it is unique. C26_violated: images below the floor give a wrong estimate. C26_ties_violated: with ties the values of getHiddenSetMAP may not form a most probable assignment."
  },
  {
   "property": "C27",
   "status": "partial",
   "theorems": [
    "EFG.C27_observed_marginal_partial",
    "EFG.C27_observed_map_partial",
    "EFG.C27_total_partial",
    "EFG.C27_violated"
   ],
   "note": "Every prudent execution; the answer is the certain distribution / the observed value. C27_violated: an unrelated factor of non square sizes makes the query of an observed variable undefined."
  },
  {
   "property": "C28",
   "status": "partial",
   "theorems": [
    "EFG.C28_same_marginal_partial",
    "EFG.C28_same_map_partial",
    "EFG.C28_violated",
    "EFG.C28_cycles_violated"
   ],
   "note": "Every prudent and steady execution, cycle-free clusters: two executions which end with the same factors, weights and evidences (up to the addresses of the functions, whatever was asked, inserted or observed before) give the same marginals and MAP values. C28_violated: after setWeights the merged unary factors are stale, so the answer differs from that of a freshly built model. C28_cycles_violated: on a cycle two models just built with the same factors, inserted in two orders, give different marginals. Missing: executions which change weights or images while something computed from them is cached, clusters with cycles."
  },
  {
   "property": "C29",
   "status": "partial",
   "theorems": [
    "EFG.C29_rounds_partial",
    "EFG.C29_same_messages_partial"
   ],
   "note": "Every arithmetic and every prudent execution: the tasks of a round are free of conflicts, every interleaving of their reads and writes gives the sequential result, and the messages and answers of cycle-free clusters are equal for all numbers of threads and schedules. Missing: imprudent executions (C24_violated)."
  },
  {
   "property": "C30",
   "status": "proved",
   "theorems": [
    "EFG.C30_schedule"
   ],
   "note": "Every cluster graph, iteration order and arithmetic."
  },
  {
   "property": "C31",
   "status": "partial",
   "theorems": [
    "EFG.C31_convergence_partial",
    "EFG.C31_positive_partial",
    "EFG.C31_queries_return_partial",
    "EFG.C31_violated"
   ],
   "note": "Bound and truthfulness proved with NaN variations counted as passing, as the code does; C31_violated: NaN variations are ignored by the test, so completion is reported although variations are not below the tolerance. When the images are positive all the variations are numbers, and completion is reported exactly when an iteration changed every message by less than the tolerance (C31_positive_partial)."
  },
  {
   "property": "C32",
   "status": "partial",
   "theorems": [
    "EFG.Pool.C32_calls_partial",
    "EFG.Pool.C32_once_partial",
    "EFG.Pool.C32_returns_partial",
    "EFG.Pool.C32_destroyed_partial",
    "EFG.Pool.C32_violated"
   ],
   "note": "Safety and liveness for every pool size, all task counts and all interleavings of sequentially consistent steps: returned calls ran each task exactly once on thread k mod size, calls do not overlap, every call returns and the destructor ends all workers in fair executions. Refuted from construction on: with two or more threads a worker may load its task pointer before it is initialised (members declared after the thread), so the positive theorems exclude executions taking that load. Throwing tasks are not modelled; the library's own tasks do not throw after prudent executions (C52_workers_partial)."
  },
  {
   "property": "C33",
   "status": "partial",
   "theorems": [
    "EFG.C33_zero_threads_partial",
    "EFG.C33_violated"
   ],
   "note": "A zero thread request that needs the pool throws (every state); C33_violated: the pool is then gone and the next valid request is undefined behaviour."
  },
  {
   "property": "C34",
   "status": "partial",
   "theorems": [
    "EFG.C34_transposed_partial",
    "EFG.C34_joint_partial",
    "EFG.C34_pieces_transposed_partial",
    "EFG.C34_pieces_partial",
    "EFG.C34_divided",
    "EFG.C34_observed_violated",
    "EFG.C34_apart_product",
    "EFG.C34_apart_violated",
    "EFG.C34_transposed_violated"
   ],
   "note": "Proved on models whose components are trees, for every group that holds at most one observed variable and whose members are joined by factors between members whenever they are linked at all, with factors symmetric under swapping their variables: the result is over the requested variables in the requested order and proportional to the joint mass given the evidences. For every other group with at most one observed variable C34_pieces_partial says exactly what is returned: the product of the joint distributions of the pieces in which the group can be divided (C34_divided), as if they were independent. Refuted: two observed members leave a pointer to a destroyed local (undefined behaviour, for every such group), variables linked through others only (C34_apart_violated), and a factor that is not symmetric is read transposed (C34_transposed_partial and C34_pieces_transposed_partial say exactly which mass is returned: factors joining two hidden variables are transposed unless both variables are in the group, or in the piece). Missing: models where all the assignments have weight zero, factors changed when their images were already used."
  },
  {
   "property": "C35",
   "status": "partial",
   "theorems": [
    "EFG.C35_samples_partial",
    "EFG.C35_model_kept_partial",
    "EFG.C35_violated"
   ],
   "note": "Every reachable model with a pool of threads, every arithmetic, context, thread number and source of random numbers. C35_violated: after a request of zero threads the model has no pool, and drawing samples is undefined."
  },
  {
   "property": "C36",
   "status": "partial",
   "theorems": [
    "EFG.C36_in_range",
    "EFG.C36_interval_partial",
    "EFG.C36_positive_partial",
    "EFG.C36_violated"
   ],
   "note": "Every distribution and draw: an index of the distribution is returned, which is that of the half open cumulative interval (lower bound excluded) containing the draw, and has positive probability if the draw is positive. C36_violated: the draw 0 returns the first value although its probability is zero."
  },
  {
   "property": "C37",
   "status": "partial",
   "theorems": [
    "EFG.C37_full_conditional_partial",
    "EFG.C37_every_variable",
    "EFG.C37_invariant_partial",
    "EFG.C37_violated"
   ],
   "note": "Every model reached by prudent and steady operations, with or without cycles, every combination and hidden variable; the full conditional and the invariance of the distribution. C37_violated: after setWeights the messages from observed variables are stale."
  },
  {
   "property": "C38",
   "status": "proved",
   "theorems": [
    "EFG.C38_race_free",
    "EFG.C38_once",
    "EFG.C38_schedule",
    "EFG.C38_completes"
   ],
   "note": "Every reachable model, arithmetic, source of random numbers and thread number; the threads read one value at a time and all interleavings of their steps are covered. Reads and writes of the combination are single atomic steps, which the absence of races justifies."
  },
  {
   "property": "C39",
   "status": "partial",
   "theorems": [
    "EFG.C39_rectangular",
    "EFG.C39_everything",
    "EFG.C39_subset_partial",
    "EFG.C39_refused_partial",
    "EFG.C39_violated"
   ],
   "note": "Construction, percentage 1 and percentages in (0,1) for all data and draws. Refusal proved for all numbers; C39_violated: a NaN percentage is not refused and makes the conversion to an integer undefined."
  },
  {
   "property": "C40",
   "status": "partial",
   "theorems": [
    "EFG.C40_refused",
    "EFG.C40_roundtrip",
    "EFG.C40_weights",
    "EFG.C40_shared_partial",
    "EFG.C40_violated"
   ],
   "note": "Round trip, refusal and well-formedness of the clusters for every reachable state and arithmetic; equal weights inside the clusters for every execution which does not set weights of inserted factors from outside. C40_violated: setting the weight through the pointer kept by the creator of the factor makes the weights of a cluster differ."
  },
  {
   "property": "C41",
   "status": "partial",
   "theorems": [
    "EFG.C41_transposed_partial",
    "EFG.C41_gradient_partial",
    "EFG.C41_derivative_partial",
    "EFG.C41_stale_violated",
    "EFG.C41_transposed_violated"
   ],
   "note": "Over exact numbers, for every execution which leaves no stale value and every model without cycles whose factors of two variables are symmetric: the gradient is the mean statistic of the samples minus its expectation (C41_gradient_partial) and, with the exact exponential over the reals, the derivative of the average log-likelihood with respect to the weight of each cluster (C41_derivative_partial). C41_stale_violated: after setWeights the product of unary factors cached by an earlier query is kept, and the gradient is computed from the old weight. C41_transposed_violated: a factor which is not symmetric is read transposed; C41_transposed_partial gives the exact value of the gradient without the hypothesis of symmetry: for each factor the other factors of two variables are transposed, the factor itself is not."
  },
  {
   "property": "C42",
   "status": "partial",
   "theorems": [
    "EFG.C42_throws",
    "EFG.C42_refused_partial",
    "EFG.C42_violated"
   ],
   "note": "Exact condition of refusal for every reachable state; nothing but a new first variable changes when the group is known. C42_violated: with an unknown group the refused factor stays in the model without a tuner."
  },
  {
   "property": "C43",
   "status": "partial",
   "theorems": [
    "EFG.C43_graph_partial",
    "EFG.C43_field_partial",
    "EFG.C43_weights",
    "EFG.C43_weight",
    "EFG.C43_sharing_violated",
    "EFG.C43_refused_violated",
    "EFG.C43_isolated_violated"
   ],
   "note": "Every reachable source, every arithmetic, every order of the containers, with and without cloning; over exact arithmetic also the product of the factors. Proved for sources without isolated variables and, for random fields, whose tunable factors are all in clusters, with one weight per cluster, and whose clusters can be told apart by the variables of their first factors. The three C43_..._violated theorems show that the copies are wrong otherwise."
  },
  {
   "property": "C44",
   "status": "partial",
   "theorems": [
    "EFG.C44_make_partial",
    "EFG.C44_no_evidence",
    "EFG.C44_sound",
    "EFG.C44_evidences_partial",
    "EFG.C44_order_violated",
    "EFG.C44_isolated_violated",
    "EFG.C44_names_violated"
   ],
   "note": "Every reachable source whose variables are told apart by their names and which C43 shows to be copied faithfully: the constructor throws exactly on the sources which are not admissible; every arithmetic and order of the containers. For every source, what is made is sound (C44_sound). setEvidences is described completely, for the order in which the map of the evidences is visited. C44_order_violated, C44_isolated_violated and C44_names_violated show that the rest is false."
  },
  {
   "property": "C45",
   "status": "partial",
   "theorems": [
    "EFG.C45_percentage",
    "EFG.C45_all_partial",
    "EFG.C45_some_partial",
    "EFG.C45_small_violated",
    "EFG.C45_order_violated"
   ],
   "note": "Every conditional random field in every state it can reach, every order of the containers which gives the sizes of the observed variables in the same order for the map and for the set, every source of random numbers. Percentage 1, percentages of at least one combination (exact arithmetic), and out of [0, 1]. C45_small_violated: for every smaller percentage the program divides by zero. C45_order_violated: with other orders it throws."
  },
  {
   "property": "C46",
   "status": "partial",
   "theorems": [
    "EFG.C46_violated",
    "EFG.C46_returned",
    "EFG.C46_lengths_partial",
    "EFG.C46_missing",
    "EFG.C46_newline_violated"
   ],
   "note": "Every file, list of combinations and reading of floating point numbers. C46_violated: the combinations which were written are never returned; C46_returned says what is returned instead. Lines of different lengths make the import throw (C46_lengths_partial). C46_newline_violated: with a newline at the end the behaviour is undefined. Streams which fail while being read are not modelled."
  },
  {
   "property": "C47",
   "status": "partial",
   "theorems": [
    "EFG.C47_values_partial",
    "EFG.C47_invalid_partial",
    "EFG.C47_violated",
    "EFG.C47_missing"
   ],
   "note": "Every reachable factor, every file of one entry per line without empty lines and every reading of floating point numbers: the images of the file are set, the others become 0, and invalid entries throw. C47_violated: a newline at the end of the file makes the import undefined."
  },
  {
   "property": "C48",
   "status": "partial",
   "theorems": [
    "EFG.C48_field_partial",
    "EFG.C48_graph_partial",
    "EFG.C48_weight",
    "EFG.C48_precision_violated",
    "EFG.C48_escape_violated",
    "EFG.C48_isolated_violated",
    "EFG.C48_names_violated",
    "EFG.C48_sharing_violated"
   ],
   "note": "Every reachable model whose variables are in some factor and have different plain names, whose images and weights are read as they were printed and whose sharing is determined by the variables of the factors, for all the orders of the containers and all the addresses of the new variables. The violations give models which lose images, names, isolated variables, the sharing or which cannot be read. The text of the json document is not modelled, only its tree."
  },
  {
   "property": "C49",
   "status": "proved",
   "theorems": [
    "EFG.C49_locked",
    "EFG.C49_keys",
    "EFG.C49_observed"
   ],
   "note": "Every reachable source, order of the containers and sequence of public operations of a conditional random field, with the mutations of the factors which do not replace their variables. A field always has an evidence (C49_observed)."
  },
  {
   "property": "C50",
   "status": "partial",
   "theorems": [
    "EFG.C50_transposed_partial",
    "EFG.C50_gradient_partial",
    "EFG.C50_derivative_partial",
    "EFG.C50_order_violated",
    "EFG.C50_positions_violated",
    "EFG.C50_transposed_violated",
    "EFG.C50_stale_violated"
   ],
   "note": "Over exact numbers, for every source, every execution of the field which leaves no stale value that setting the evidences does not renew, every training set, no cycles among the hidden variables and symmetric factors between hidden variables: expectation form (C50_gradient_partial) and, over the reals, the derivative of the average conditional log-likelihood (C50_derivative_partial). The stored positions must be those of the evidences in the order in which the map is visited. C50_transposed_partial gives the exact value without the hypothesis of symmetry. C50_order_violated, C50_positions_violated, C50_transposed_violated and C50_stale_violated show that each of these conditions is needed."
  },
  {
   "property": "C51",
   "status": "partial",
   "theorems": [
    "EFG.C51_calls",
    "EFG.C51_crf_calls",
    "EFG.C51_weights",
    "EFG.C51_crf_weights",
    "EFG.C51_threads_violated",
    "EFG.C51_percentage",
    "EFG.C51_gradient_partial",
    "EFG.C51_crf_gradient_partial",
    "EFG.C51_derivative_partial",
    "EFG.C51_crf_derivative_partial",
    "EFG.C51_batch_partial",
    "EFG.C51_nan_violated",
    "EFG.C51_empty_violated",
    "EFG.C51_stale_violated"
   ],
   "note": "For every optimiser, seen as a program which calls the model a finite number of times and may depend on the answers: the training is the sequence of its calls (C51_calls, C51_crf_calls), leaves the weights set last and touches nothing else but evidences and caches (C51_weights, C51_crf_weights), refuses percentages out of (0, 1] (C51_percentage), draws batches of the right size from the set (C51_batch_partial). Over exact numbers, for the conditions of C41 and C50 and tunable factors whose change leaves no stale product (factors of two variables in a random field; factors of variables joined to an observed one in a conditional random field), every gradient of the training is the one of the batch at the current weights (C51_gradient_partial, C51_crf_gradient_partial) and, over the reals, the derivative (C51_derivative_partial, C51_crf_derivative_partial). C51_stale_violated: with a tunable factor of one variable the second gradient is computed with the old weight. C51_empty_violated: with a percentage of less than one sample the gradient is that of no samples. C51_nan_violated, C51_threads_violated: undefined behaviour for a percentage which is not a number, no pool after zero threads."
  },
  {
   "property": "C52",
   "status": "partial",
   "theorems": [
    "EFG.C52_edits_defined",
    "EFG.C52_defined_partial",
    "EFG.C52_workers_partial",
    "EFG.C52_programs_defined_partial",
    "EFG.C52_samples_violated"
   ],
   "note": "C52_edits_defined: after any execution, every operation other than the queries returns or throws. C52_defined_partial: after any prudent execution, so do the queries, the gradient and the sampler, with at least one thread, on models with or without cycles; C52_programs_defined_partial: so does a whole program which catches the exceptions. C52_workers_partial: nothing a worker runs during a propagation, the sampling or the gradient throws, so no exception escapes a thread. The operands must satisfy what the library does not check (Spec/Safety): pointers of existing factors, distinct new variables (C02_replace_ub_violated), at most one observed variable in a joint distribution (C34_observed_violated), samples with a value of every variable (C52_samples_violated). Missing: executions which are not prudent, for which the property is false (C21_violated, C24_violated, C33_violated)."
  },
  {
   "property": "C53",
   "status": "partial",
   "theorems": [
    "EFG.C53_field_partial",
    "EFG.C53_graph_partial",
    "EFG.C53_precision_violated",
    "EFG.C53_isolated_violated",
    "EFG.C53_names_violated",
    "EFG.C53_sharing_violated",
    "EFG.C53_order_violated"
   ],
   "note": "Every reachable model whose variables are in some factor and have different names, whose images and weights are read as they were printed and whose shared clusters can be told apart by the variables of their factors, for all the orders of the containers, all the orders of the nested tags and all the addresses of the new variables: the same variables, evidences, factors, weights, tunable factors and clusters; read into a model without tunable factors, the same factors (C53_graph_partial); C48_weight gives the same distribution. Missing, with witnesses: images with more decimals, isolated variables, equal names, clusters which are mixed up when the tags come in another order (C53_sharing_violated), attributes with the same name given back in another order (C53_order_violated). The text of the xml file is not modelled, only its tags."
  },
  {
   "property": "C54",
   "status": "partial",
   "theorems": [
    "EFG.C54_json",
    "EFG.C54_json_defined_partial",
    "EFG.C54_json_prudent_partial",
    "EFG.C54_xml",
    "EFG.C54_xml_defined_partial",
    "EFG.C54_xml_prudent_partial",
    "EFG.C54_keys_violated",
    "EFG.C54_numbers_violated",
    "EFG.C54_lines_violated",
    "EFG.C54_refused_violated"
   ],
   "note": "For every document and every reached model, json and xml: what is left after returning or throwing is reached by public operations, extends the model before, and has one factor for each one of the document when it returns. Definedness is proved for documents with the needed keys, numbers in the range of int and files without blank lines; these conditions are needed (C54_keys_violated, C54_numbers_violated, C54_lines_violated). A refused document leaves part of its content (C54_refused_violated)."
  },
  {
   "property": "C55",
   "status": "proved",
   "theorems": [
    "EFG.C55_json",
    "EFG.C55_xml"
   ],
   "note": "For every document, every reached model and every order, json and xml: a returned import has declared proper variables, none twice, each element describing a factor describes exactly one (uniqueness is proved), and the model contains it: names, sizes, images, weight, constant or tunable, group. The evidences are exactly the described ones over the old ones. What happens when the import throws or is undefined is C54. The parsing of the text of the document into a tree is not modelled."
  },
  {
   "property": "C56",
   "status": "partial",
   "theorems": [
    "EFG.C56_law_partial",
    "EFG.C56_frequency_partial",
    "EFG.C56_limit_partial",
    "EFG.C56_zero_violated",
    "EFG.C56_clock_violated"
   ],
   "note": "Exact arithmetic over the reals, engines which draw independent uniform numbers (Spec/GibbsLaw.lean; such engines exist, exists_engines). For every model reached by prudent and steady operations with positive factors, every evidence, order, context, number of threads up to 2^32 and test: the law of each sample approaches the distribution of the model geometrically, the mean square error of the frequency is at most 4/(d*samples), and the frequency converges in probability. Missing: factors which can be zero (C56_zero_violated: no sample has a combination of probability 1/2), several threads without seed (C56_clock_violated: all the engines have the same seed). The real engine is a deterministic pseudo random generator, and the C++ code computes with floats."
  },
  {
   "property": "C57",
   "status": "partial",
   "theorems": [
    "EFG.C57_transposed_partial",
    "EFG.C57_cluster_partial",
    "EFG.C57_local_partial",
    "EFG.C57_uniform_violated"
   ],
   "note": "Every prudent and steady execution, every numeric field: the marginal of a hidden variable of a cycle-free cluster is the distribution of the product of the factors of the cluster, with no assumption on the other clusters, and a list of NaN exactly when every product is zero. C57_transposed_partial: any factors, as the library reads them; C57_cluster_partial: symmetric hidden-hidden factors; C57_local_partial: two models with the same masses in the cluster give the same answer. C57_uniform_violated: the uniform fallback of getProbabilities is not what the marginals give for zero weights. Missing: asymmetric factors, factors changed when their images were already used."
  },
  {
   "property": "C58",
   "status": "partial",
   "theorems": [
    "EFG.C58_transposed_partial",
    "EFG.C58_rounded_partial",
    "EFG.C58_error_partial",
    "EFG.C58_range_transposed_partial",
    "EFG.C58_range_partial",
    "EFG.C58_underflow_violated"
   ],
   "note": "Every rounding function with relative error at most u, every prudent and steady execution which draws no samples: C58_transposed_partial (any factors, as the library reads them), C58_rounded_partial and C58_error_partial (symmetric hidden-hidden factors). C58_range_transposed_partial and C58_range_partial: the same when the error is bounded only for results between 1 / H and H, as in binary32, if the images are between 1 / A and A and (m A / (1 - u)^(m + 4))^(4 D + 3) <= H, m the largest size and D the largest number of factors of a variable. C58_underflow_violated: with the smallest exponent of binary32, products which underflow give NaN instead of the marginals. Missing: images outside of that range (zero in particular) with results of a bounded range, asymmetric factors, factors changed when their images were already used, executions which draw samples, the error of the images of the exponential factors (taken as computed). The MAP is C59."
  },
  {
   "property": "C59",
   "status": "partial",
   "theorems": [
    "EFG.C59_transposed_partial",
    "EFG.C59_map_rounded_partial",
    "EFG.C59_range_partial",
    "EFG.C59_margin_partial",
    "EFG.C59_hidden_set_partial",
    "EFG.C59_exact_violated"
   ],
   "note": "Every rounding function with relative error at most u, every prudent and steady execution which draws no samples: the value returned by getMAP is the one of an assignment whose weight is the greatest up to the factor (1 - u)^(2 N). C59_transposed_partial: any factors with images not below the floor of the maximum by three roundings, as the library reads them; C59_map_rounded_partial: symmetric hidden-hidden factors; C59_range_partial: error bounded between 1 / H and H only; C59_margin_partial and C59_hidden_set_partial: the best assignment is returned when it outweighs the others by more than the factor. C59_exact_violated: in binary32 the most probable value can be missed. Missing: as for C58, and the images below the floor (C26_violated)."
  },
  {
   "property": "C60",
   "status": "partial",
   "theorems": [
    "EFG.C60_size",
    "EFG.C60_set_partial",
    "EFG.C60_anti_partial",
    "EFG.C60_set_violated",
    "EFG.C60_anti_violated"
   ],
   "note": "Every word size, every group with less than N combinations, all writes and every rounding of the critical size: C60_set_partial, C60_anti_partial; Group::size for every group: C60_size. Missing: the larger groups, for which the property is false: when the number of the combinations is a multiple of N (two variables with 2^32 values, 64 variables with two values) six writes (C60_set_violated) or the constructor of an anti-correlated factor (C60_anti_violated) write in an empty vector."
  },
  {
   "property": "C61",
   "status": "partial",
   "theorems": [
    "EFG.C61_optimum_partial",
    "EFG.C61_crf_optimum_partial"
   ],
   "note": "Over the reals with the exact exponential, for every execution which leaves no stale value, every model without cycles whose factors of two variables are symmetric and every training set of possible samples: tangent and zero gradient iff greatest likelihood, for the random field (C61_optimum_partial) and for the conditional random field (C61_crf_optimum_partial), over all vectors of weights. Missing: the cases in which the gradient itself is wrong (C41_stale_violated, C41_transposed_violated, C50_*_violated)."
  },
  {
   "property": "C62",
   "status": "partial",
   "theorems": [
    "EFG.C62_copy_defined",
    "EFG.C62_make_defined",
    "EFG.C62_operations_defined_partial",
    "EFG.C62_positions",
    "EFG.C62_training_defined_partial",
    "EFG.C62_crf_training_defined_partial",
    "EFG.C62_positions_violated"
   ],
   "note": "For any arithmetic: copies and the construction of a conditional random field from every reachable source (C62_copy_defined, C62_make_defined), every operation of a conditional random field made from a source reached by a prudent execution (C62_operations_defined_partial), the training of a random field and of a conditional random field with any optimiser (C62_training_defined_partial, C62_crf_training_defined_partial). C62_positions gives the condition on the positions from those of C44. Missing: sources reached by other executions (C21, C24, C33), and the positions of the evidences when variables of the source are not copied, where the gradient reads past the end of a valid sample (C62_positions_violated)."
  },
  {
   "property": "C63",
   "status": "partial",
   "theorems": [
    "EFG.C63_repeat_partial",
    "EFG.C63_threads_violated",
    "EFG.C63_iterations_violated"
   ],
   "note": "Every arithmetic, every prudent execution which leaves a model where nothing was asked since the last change, every list of queries with the same number of threads and orders of the containers, clusters with or without cycles: same values, exceptions and state. C63_threads_violated: on a cycle of four variables one and two threads give different marginals. C63_iterations_violated: setPropagationContext does not forget the messages, so a later marginal depends on whether a query of the other kind was made in between."
  },
  {
   "property": "C64",
   "status": "partial",
   "theorems": [
    "EFG.C64_threads_partial",
    "EFG.C64_mixed_partial"
   ],
   "note": "Every prudent execution, ordered fields with NaN, every two numbers of threads greater than 1 and all schedules, clusters with or without cycles: same values, exceptions and state, also when queries with other numbers of threads were made before. Missing: imprudent executions. One thread gives other answers on clusters with cycles (C63_threads_violated)."
  },
  {
   "property": "C65",
   "status": "partial",
   "theorems": [
    "EFG.C65_forest_partial",
    "EFG.C65_mixed_partial",
    "EFG.C65_defined_partial",
    "EFG.C65_null",
    "EFG.C65_stale_violated",
    "EFG.C65_throw_violated"
   ],
   "note": "C65_forest_partial: after prudent executions, without cycles every query has the outcome of the default strategy, for every strategy, even one with undefined behaviour. C65_mixed_partial, C65_defined_partial: strategies which write only messages of their cluster do not change the marginals of clusters without cycles, and all queries of marginals are defined. C65_null: null is refused. The last two parts of the property are false: a strategy set after a query is not used until a query of the other kind (C65_stale_violated), and when a strategy throws the result of the propagation before is kept though its messages were reset, so the next query dereferences an absent message (C65_throw_violated). Missing also: executions which are not prudent."
  },
  {
   "property": "C66",
   "status": "partial",
   "theorems": [
    "EFG.C66_report_partial",
    "EFG.C66_sizes_partial",
    "EFG.C66_query_partial",
    "EFG.C66_changed",
    "EFG.C66_absent_violated"
   ],
   "note": "After every prudent execution, whatever was refused, asked or drawn in between, a report which is available describes the present model (C66_report_partial) and its sizes add up to the number of hidden variables (C66_sizes_partial); a query or gradient which returned leaves a report of its kind (C66_query_partial). After every accepted change there is no report (C66_changed), and then getLastPropagationResult dereferences an empty optional, which is undefined instead of throwing (C66_absent_violated). Missing also: executions which are not prudent."
  },
  {
   "property": "C67",
   "status": "partial",
   "theorems": [
    "EFG.C67_unknown",
    "EFG.C67_named_partial",
    "EFG.C67_several_partial",
    "EFG.C67_first_set",
    "EFG.C67_first_remove",
    "EFG.C67_violated"
   ],
   "note": "A name which no variable has is refused by all overloads and nothing changes (C67_unknown). A name which exactly one variable has acts as that variable (C67_named_partial), and several such names as the set or the group of the variables (C67_several_partial). In every reachable state a name reaches the first inserted variable which has it (C67_first_set, C67_first_remove). Refuted for two variables with the same name and different sizes, of which only the first can be reached (C67_violated)."
  },
  {
   "property": "C68",
   "status": "partial",
   "theorems": [
    "EFG.C68_total_partial",
    "EFG.C68_bayes_partial",
    "EFG.C68_violated"
   ],
   "note": "Proved for hidden variables of clusters without cycles whose joining factors are symmetric, no factor changed while something computed from it is cached: the law of total probability (C68_total_partial), the theorem of Bayes and the chain rule with the joint distribution of two joined variables (C68_bayes_partial). Refuted with a factor which is not symmetric (C68_violated)."
  },
  {
   "property": "C69",
   "status": "partial",
   "theorems": [
    "EFG.C69_marginal_partial",
    "EFG.C69_map_partial",
    "EFG.C69_joint_partial",
    "EFG.C69_violated"
   ],
   "note": "Proved for the variables of clusters without cycles of both models, whose joining factors are symmetric: equal marginals (C69_marginal_partial), equal most probable values also with ties (C69_map_partial), proportional joint distributions (C69_joint_partial). Refuted with a factor which is not symmetric (C69_violated)."
  },
  {
   "property": "C70",
   "status": "partial",
   "theorems": [
    "EFG.C70_unnoticed_marginal",
    "EFG.C70_unnoticed_map",
    "EFG.C70_set_partial",
    "EFG.C70_clear_partial",
    "EFG.C70_violated",
    "EFG.C70_unnoticed_joint",
    "EFG.C70_set_map_partial",
    "EFG.C70_clear_map_partial",
    "EFG.C70_set_joint_partial",
    "EFG.C70_clear_joint_partial",
    "EFG.C70_joint_violated"
   ],
   "note": "Every prudent and steady execution, exact arithmetic: `set` and `clear` called on a factor of the model while nothing computed from it is cached give, in every cluster without cycles, the marginals of the product in which this factor has the new images (C70_set_partial, C70_clear_partial), the most probable values (C70_set_map_partial, C70_clear_map_partial) and the joint distributions (C70_set_joint_partial, C70_clear_joint_partial). The predicate of the exactness theorems (C25, C26, C34, C41, ...) allows these changes. After a query the changes are not noticed: on any arithmetic, any change of any factor leaves the next marginal or MAP of the same variable as it was (C70_unnoticed_marginal, C70_unnoticed_map; C70_violated with the numbers), and the next joint distribution too unless the factor joins two variables of the group (C70_unnoticed_joint). In that case the change is seen, so that a joint distribution and a marginal asked one after the other contradict each other (C70_joint_violated)."
  },
  {
   "property": "C71",
   "status": "partial",
   "theorems": [
    "EFG.C71_sign",
    "EFG.C71_joint",
    "EFG.C71_rounded",
    "EFG.C71_any_partial",
    "EFG.C71_marginal_partial",
    "EFG.C71_positive",
    "EFG.C71_violated",
    "EFG.C71_joint_positive_partial"
   ],
   "note": "Every graph, also with cycles and before convergence. After any execution whatsoever a returned marginal is a probability distribution or a list of NaN (C71_any_partial), and after a prudent one it is returned with one number for each value (C71_marginal_partial). With positive images, prudent and steady executions and a query which propagates it is made of positive numbers which sum to one (C71_positive). On every arithmetic which keeps the sign, also with rounding, no entry of a marginal and no image of a joint distribution is negative (C71_sign, C71_rounded, C71_joint). C71_violated: with a null factor the marginals are NaN. C71_joint_positive_partial: with positive factors the images of a joint distribution are numbers on every graph, positive exactly where no evidence is contradicted."
  },
  {
   "property": "C72",
   "status": "partial",
   "theorems": [
    "EFG.C72_proportional",
    "EFG.C72_map_partial",
    "EFG.C72_hidden_set_partial",
    "EFG.C72_elsewhere",
    "EFG.C72_elsewhere_map",
    "EFG.C72_map_violated",
    "EFG.C72_joint_partial",
    "EFG.C72_elsewhere_joint_partial"
   ],
   "note": "Two models of the same shape (State.SameGraph) whose factors in the cluster of the variable are proportional give the same marginal on every graph, also before convergence (C72_proportional). C72_map_partial: the same MAP value, if moreover the factors which join two hidden variables of the cluster are equal or have no image below the floor of the maximum; C72_hidden_set_partial: the same list of MAP values for all the hidden variables. Changing an image of a factor of another cluster before a query leaves the marginal and the MAP value as they were (C72_elsewhere, C72_elsewhere_map). C72_map_violated: multiplying a factor which joins two hidden variables by a small number, so that its images are below the floor, changes the MAP value, because of the floor of the maximum. C72_joint_partial: with positive factors the joint distributions of a group are proportional, on every graph, and C72_elsewhere_joint_partial: a change of a factor of another cluster does not change them up to a scale. Exact arithmetic with NaN; prudent and steady executions, both models about to propagate."
  },
  {
   "property": "C73",
   "status": "partial",
   "theorems": [
    "EFG.C73_single_partial",
    "EFG.C73_null_violated",
    "EFG.C73_scale_violated",
    "EFG.C73_pair_violated",
    "EFG.C73_summed_partial",
    "EFG.C73_summed_observed_partial"
   ],
   "note": "C73_single_partial: with positive factors the joint distribution of one variable is a positive multiple of its marginal, and its getProbabilities is the marginal, on every graph, hidden or observed, both queries leave the same model, and the answers do not depend on which is asked first. C73_summed_partial, C73_summed_observed_partial: the joint distribution of a group, summed over the other members, is a positive multiple of the marginal of a hidden or observed member, and both queries leave the same model, where no cycle goes through the clusters of the members, under the hypotheses of C34_pieces_partial (null images allowed), so also for the groups whose joint distribution is wrong because its members are joined only through other variables. For one variable, without positivity it fails: C73_null_violated, the marginal is NaN while the joint distribution is zero. The images themselves are not normalised: C73_scale_violated. With cycles it fails for several variables: C73_pair_violated, on a triangle with positive factors the joint distribution of two variables, summed over one, is not the marginal of the other. Exact arithmetic with NaN; prudent and steady executions."
  }
 ]
}