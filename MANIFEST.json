{
 "claims": [
  {
   "property": "C01",
   "status": "proved",
   "theorems": [
    "PM.Props.C01_loglikelihood",
    "PM.Props.C01_formula_exists_unique"
   ],
   "note": "layered smooth circuits, all leaf kinds, any memory left by earlier queries"
  },
  {
   "property": "C02",
   "status": "partial",
   "theorems": [
    "PM.Props.C02_pass_eq_recursion_partial",
    "PM.Props.C02_full_false"
   ],
   "note": "Holds for layered circuits; the full statement is false of the code (C02_full_false): a unit reachable along paths of different length is read before it is computed."
  },
  {
   "property": "C03",
   "status": "proved",
   "theorems": [
    "PM.Props.C03_history_independent",
    "PM.Props.C03_loglikelihood_indep"
   ],
   "note": "C03_stale_read shows the failure outside the quantifier (non-layered circuit)."
  },
  {
   "property": "C04",
   "status": "proved",
   "theorems": [
    "PM.Props.C04_probability_is_integral"
   ],
   "note": "All leaf kinds with densities (uniform, Gaussian, truncated Gaussian, integer, symbolic); Lebesgue/counting product measure."
  },
  {
   "property": "C05",
   "status": "proved",
   "theorems": [
    "PM.Props.C05_bounds",
    "PM.Props.C05_universal",
    "PM.Props.C05_impossible",
    "PM.Props.C05_monotone"
   ],
   "note": "All leaf kinds including Dirac."
  },
  {
   "property": "C06",
   "status": "proved",
   "theorems": [
    "PM.Props.C06_decomposition_independent",
    "PM.Props.C06_sum_over_parts"
   ],
   "note": "All leaf kinds including Dirac."
  },
  {
   "property": "C07",
   "status": "partial",
   "theorems": [
    "PM.Props.C07_simple",
    "PM.Props.C07_none",
    "PM.Props.C07_empty",
    "PM.Props.C07_full_false"
   ],
   "note": "The returned probability equals probability(event) for every simple event on every valid circuit, and None is returned exactly for probability 0 (all events). The full statement is false for unions of simple events: C07_full_false shows conditional returning 1/128 where the probability is 1/8."
  },
  {
   "property": "C08",
   "status": "partial",
   "theorems": [
    "PM.Props.C08_balanced_partial",
    "PM.Props.C08_proportional_partial",
    "PM.Props.C08_union_partial",
    "PM.Props.C08_full_false",
    "PM.Props.C08_pieces_false"
   ],
   "note": "Bayes' rule holds on trees in which every sum unit keeps children of equal probability or only one child (C08_balanced_partial), and more generally if the probabilities of the possible children are proportional to the weight left below them, e.g. if whole components are removed (C08_proportional_partial); also for unions of simple events that each satisfy this, e.g. for every union on a circuit without sum units (C08_union_partial). The full statement is false: the weights of sum units are not updated (C08_full_false) and the pieces of a leaf get their probability as log weight (C08_pieces_false). C88 and C96 say what is computed instead."
  },
  {
   "property": "C09",
   "status": "partial",
   "theorems": [
    "PM.Props.C09_history_partial",
    "PM.Props.C09_queries",
    "PM.Props.C09_results",
    "PM.Props.C09_copy_needed",
    "PM.Props.C09_full_false"
   ],
   "note": "Proved for all histories of copy/conditional/marginal and in-place edits (conditional, marginal, simplify, normalize, translate, scale, update_variables, fit, replaced distributions) over any number of circuits; in-place methods write to the circuit object they are called on, and C09_copy_needed shows that marginal without its copy would change the original. False as stated when the user normalises the distribution of a leaf of a copy: the copy shares the dictionary (C09_full_false). Not modelled: copies made inside one call with several simple events are values."
  },
  {
   "property": "C10",
   "status": "partial",
   "theorems": [
    "PM.Props.C10_none",
    "PM.Props.C10_tree_partial",
    "PM.Props.C10_probability_partial",
    "PM.Props.C10_value_partial",
    "PM.Props.C10_full_false"
   ],
   "note": "None iff no variable is kept: proved for all layered smooth circuits. Joint law of kept variables: proved for trees without zero weights (API level), for DAGs whose restriction has safe sharing at formula level. False in general: shared leaf witness (total probability 3/4)."
  },
  {
   "property": "C100",
   "status": "proved",
   "theorems": [
    "PM.Props.C100_row_by_row",
    "PM.Props.C100_likelihood",
    "PM.Props.C100_stacked",
    "PM.Props.C100_missing_column"
   ],
   "note": "The vectorised code (masks, columns, stacked arrays) is modelled separately from the single-row queries and proved to agree with them. Product units without subcircuits are excluded (numpy then returns a number, not an array)."
  },
  {
   "property": "C101",
   "status": "partial",
   "theorems": [
    "PM.Props.C101_cdf_partial",
    "PM.Props.C101_integral_partial",
    "PM.Props.C101_monotone_partial",
    "PM.Props.C101_symbolic_raises",
    "PM.Props.C101_other_rows",
    "PM.Props.C101_full_false"
   ],
   "note": "Proved for integer leaves with increasing keys and arrays with at least one row. The full property is false: for integer keys in another order the loop stops at the first key above the largest row, so the value of a row depends on the other rows."
  },
  {
   "property": "C102",
   "status": "proved",
   "theorems": [
    "PM.Props.C102_step_by_step",
    "PM.Props.C102_any_order",
    "PM.Props.mix_observed"
   ],
   "note": "Induction over the sequence of observations; mix_observed is a mixture that is told twice where its variable lies. mem_together says what the combined event is. Outside the quantifier: shared units, Dirac leaves, closed intervals (which can cut a continuous leaf down to a point) and unions."
  },
  {
   "property": "C103",
   "status": "proved",
   "theorems": [
    "PM.Props.C103_samples"
   ],
   "note": "Combines C102 with the law of sample() (C63). Same quantifier as C102."
  },
  {
   "property": "C104",
   "status": "partial",
   "theorems": [
    "PM.Props.C104_first_partial",
    "PM.Props.C104_jpt_first",
    "PM.Props.C104_nyga_again",
    "PM.Props.C104_nyga_forever",
    "PM.Props.C104_jpt_again",
    "PM.Props.C104_jpt_failed_first",
    "PM.Props.C104_full_false",
    "PM.Props.C104_jpt_full_false",
    "PM.Props.C104_nyga_new",
    "PM.Props.C104_jpt_new"
   ],
   "note": "Only the first fit of an object works. Every further fit of either class adds a second unit without parents: JPT.fit and NygaDistribution.fit raise ValueError (NygaDistribution.fit returns if the data has one value), and every later query raises ValueError, also after any further fits. A JPT whose first fit failed in preprocess_data cannot be fitted any more."
  },
  {
   "property": "C105",
   "status": "partial",
   "theorems": [
    "PM.Props.C105_order_partial",
    "PM.Props.C105_certain",
    "PM.Props.C105_repeated",
    "PM.Props.C105_full_false"
   ],
   "note": "The order does matter: C105_full_false gives the mixture of a mixture where the same two observations, one of them certain, give an event the probability 1/2 or 1/3 depending on the order. Proved: in every order the same simple events are impossible (C105_order_partial); an observation of probability one changes no probability (C105_certain); entering earlier observations again, in any order and number, changes no probability (C105_repeated). Scope: trees without zero weights and Dirac leaves, observations that are open intervals on continuous variables."
  },
  {
   "property": "C106",
   "status": "proved",
   "theorems": [
    "PM.Props.C106_history",
    "PM.Props.C106_distribution",
    "PM.Props.C106_exact",
    "PM.Props.C106_samples"
   ],
   "note": "For tree models as in C102; sequences of calls in Spec/Histories."
  },
  {
   "property": "C107",
   "status": "proved",
   "theorems": [
    "PM.Props.C107_independent",
    "PM.Props.C107_irrelevant"
   ],
   "note": "Independence for every smooth decomposable normalized circuit with a product root; irrelevance of evidence about other factors for the class of models of C102/C106."
  },
  {
   "property": "C108",
   "status": "partial",
   "theorems": [
    "PM.Props.C108_order_partial",
    "PM.Props.C108_marginals",
    "PM.Props.C108_full_false"
   ],
   "note": "The full statement is false for the code: on a nested mixture the two orders give 3/4 and 5/6 (C108_full_false), because conditional does not reweight by the probability of the evidence below a unit, and marginal flattens nested sum units before. Proved: both orders succeed, end with None in the same cases, give models over the same variables with the same impossible events; and marginals compose exactly."
  },
  {
   "property": "C109",
   "status": "proved",
   "theorems": [
    "PM.Props.C109_density",
    "PM.Props.C109_likelihood",
    "PM.Props.C109_moment",
    "PM.Props.C109_variance",
    "PM.Props.C109_samples"
   ],
   "note": "For EvidenceModel g (layered, smooth, decomposable, normalized tree without Dirac leaves), the class stated in the quantifier. Sampling is the exact-arithmetic random process of C63."
  },
  {
   "property": "C11",
   "status": "partial",
   "theorems": [
    "PM.Props.C11_tree_partial",
    "PM.Props.C11_value_partial",
    "PM.Props.C11_queries_partial",
    "PM.Props.C11_full_false_shared",
    "PM.Props.C11_full_false_zero_weight",
    "PM.Props.C11_full_false_layering"
   ],
   "note": "Proved for trees without zero weights (API level) and for DAGs that share units only where nothing is simplified (mixture/product formula level). False in general: three concrete witnesses (shared grandchildren overwrite weights; a zero-weight edge leaves a second root; collapsing a unit destroys layering)."
  },
  {
   "property": "C110",
   "status": "proved",
   "theorems": [
    "PM.Props.C110_json",
    "PM.Props.C110_copy",
    "PM.Props.C110_unfitted",
    "PM.Props.C110_learned",
    "PM.Props.C110_no_variable"
   ],
   "note": "Floats are exact; variables are represented by their numbers as in C19."
  },
  {
   "property": "C111",
   "status": "partial",
   "theorems": [
    "PM.Props.C111_deterministic_partial",
    "PM.Props.C111_mode_partial",
    "PM.Props.C111_shared",
    "PM.Props.C111_clash",
    "PM.Props.C111_full_false"
   ],
   "note": "Proved for all data in which different integers of a column have different hashes. The full statement is false of the code: integer columns store hash(x), hash(-1) = hash(-2) = -2, so a tree that separates -1 from -2 has two leaves with mass at -2 and mode raises IntractableError (C111_clash, C111_full_false). The impurity is an external object, so that its splits separate is a hypothesis; C111_shared shows what happens when they do not."
  },
  {
   "property": "C112",
   "status": "partial",
   "theorems": [
    "PM.Props.C112_probability_partial",
    "PM.Props.C112_moments_partial",
    "PM.Props.C112_mode_partial",
    "PM.Props.C112_scale_partial",
    "PM.Props.C112_full_false",
    "PM.Props.C112_scale_full_false"
   ],
   "note": "Proved for circuits with an inner root: translate for all numeric leaves (probabilities of moved events, all moments around moved centers, expectations, variances, determinism and mode); scale for uniform leaves with positive factors and integer leaves with non-zero integer factors (moments, expectations, variances). The full statements are false of the code: a single leaf is not moved, scale adds to Dirac distributions and raises for Gaussians."
  },
  {
   "property": "C113",
   "status": "partial",
   "theorems": [
    "PM.Props.C113_integer_partial",
    "PM.Props.C113_symbolic",
    "PM.Props.C113_table",
    "PM.Props.C113_quantiles",
    "PM.Props.C113_weighted_quantiles",
    "PM.Props.C113_full_false"
   ],
   "note": "Maximum likelihood with uniqueness, for integer and symbolic leaves, tables and quantile distributions with and without weights (given per distinct point in increasing order, see C40). C113_full_false: for integers the property fails when the data contains -1, because hash(-1) is -2 and the fitted distribution gives -1 probability zero. C113_integer_partial excludes -1 and integers from 2^61 - 1 on. For quantile distributions the competitors are the densities constant on the learned intervals."
  },
  {
   "property": "C114",
   "status": "partial",
   "theorems": [
    "PM.Props.C114_l1_partial",
    "PM.Props.C114_full_false"
   ],
   "note": "Proved for deterministic circuits with uniform leaves and single-integer leaves: l1 is at most the L1 distance, less by at most 2*tolerance*size of the support, and exact if no difference lies between zero and the tolerance. Without determinism it is false of the code: for 1/2 U[0,2] + 1/2 U[1,3] and U[0,3] l1 is 0 (C114_full_false). Differences and unions of events belong to random_events and enter as a parameter that represents a set of points by disjoint simple events."
  },
  {
   "property": "C115",
   "status": "partial",
   "theorems": [
    "PM.Props.C115_paired_partial",
    "PM.Props.C115_normalized",
    "PM.Props.C115_full_false"
   ],
   "note": "The full statement is false of the code: np.log is applied to log weights. Proved: for every normalized mixture the call succeeds and the likelihood afterwards is NaN at every point, or 0 everywhere if there is one component (C115_normalized); for mixtures with weights of at least one the result is a valid circuit whose likelihood is the sum of log(w_k) p_k q_k (C115_paired_partial)."
  },
  {
   "property": "C116",
   "status": "partial",
   "theorems": [
    "PM.Props.C116_law_partial",
    "PM.Props.C116_target_partial",
    "PM.Props.C116_bayes_partial",
    "PM.Props.C116_none",
    "PM.Props.C116_agreeing",
    "PM.Props.C116_full_false"
   ],
   "note": "The code does not follow Bayes' rule: C116_full_false gives a tree with the leaves {0} and {1, 2} in which P(0 | 0 or 1) comes out as 1/3 instead of 1/2. C116_law_partial states exactly what is computed: the agreeing leaves keep weights proportional to all their rows. C116_target_partial: a column without evidence gets the relative frequencies of all rows in agreeing leaves. C116_bayes_partial: Bayes' rule holds, for all events, if the evidence has the same share in every agreeing leaf. C116_none: evidence no leaf agrees with has probability 0 and conditional returns None. Restrictions: integer entries are their own hash, no Dirac leaves for continuous columns."
  },
  {
   "property": "C117",
   "status": "partial",
   "theorems": [
    "PM.Props.C117_moment_partial",
    "PM.Props.C117_expectation_partial",
    "PM.Props.C117_variance_partial",
    "PM.Props.C117_symbolic_raises",
    "PM.Props.C117_zero_variance",
    "PM.Props.C117_full_false"
   ],
   "note": "Integer columns: every moment, mean and variance is the sample value. Continuous columns: mean within the range, variance between 0 and (max - mean) * (mean - min). False in full: a Dirac leaf has variance 0 as it should, but its second moment around any centre is also computed as 0, so the variance is positive exactly if some leaf holds two different entries (C117_zero_variance: the column 0, 2 has variance 0); a tree with a symbolic column raises for every moment (C117_symbolic_raises)."
  },
  {
   "property": "C118",
   "status": "partial",
   "theorems": [
    "PM.Props.C118_possible_partial",
    "PM.Props.C118_samples_partial",
    "PM.Props.C118_integers_partial",
    "PM.Props.C118_full_false"
   ],
   "note": "Proved for data whose integer entries are their own hash. The full statement is false of the code for the integer -1, which is stored as hash(-1) = -2 (C118_full_false)."
  },
  {
   "property": "C119",
   "status": "partial",
   "theorems": [
    "PM.Props.C119_prediction_partial",
    "PM.Props.C119_joint_partial",
    "PM.Props.C119_example",
    "PM.Props.C119_full_false"
   ],
   "note": "C119_full is false of the code (C119_full_false): after conditioning the leaves keep weights proportional to all their training rows, so the prediction is the average over all rows of the agreeing leaves, not the conditional expectation. C119_prediction_partial proves exactly that for every tree, evidence, integer column, order and centre (conditional, then marginal, then moment/expectation/variance); C119_joint_partial proves it without the marginal for trees without symbolic columns. Missing: trees with Dirac leaves (continuous columns that are constant in a leaf), integers that are not their own hash."
  },
  {
   "property": "C12",
   "status": "proved",
   "theorems": [
    "PM.Props.C12_normalize",
    "PM.Props.C12_sums_to_one",
    "PM.Props.C12_idempotent",
    "PM.Props.C12_twice",
    "PM.Props.C12_ratios"
   ],
   "note": "Sum units with at least one weight above -inf. Reals instead of floats."
  },
  {
   "property": "C120",
   "status": "partial",
   "theorems": [
    "PM.Props.C120_values_partial",
    "PM.Props.C120_samples_partial",
    "PM.Props.C120_predictions_partial",
    "PM.Props.C120_example"
   ],
   "note": "Proved for programs of any length over the six operations. Missing: trees in which a continuous column became a Dirac leaf (all entries of a leaf equal), and continuous evidence that is not a single open interval; predictions are stated for programs that end with numeric columns only, since moments of symbolic leaves raise."
  },
  {
   "property": "C121",
   "status": "partial",
   "theorems": [
    "PM.Props.C121_possible",
    "PM.Props.C121_training_row_partial",
    "PM.Props.C121_full_false"
   ],
   "note": "C121_possible is the claim for circuits. For learned trees the full claim is false (C121_full_false): a tree learned from the integer -1 stores hash(-1) = -2, so its own training row is impossible. C121_training_row_partial proves it for rows whose integers are their own hash and trees without Dirac leaves."
  },
  {
   "property": "C122",
   "status": "partial",
   "theorems": [
    "PM.Props.C122_possible",
    "PM.Props.C122_learned_partial",
    "PM.Props.C122_samples_partial",
    "PM.Props.C122_full_false"
   ],
   "note": "C122_possible is the claim for circuits. For learned trees the full claim is false (C122_full_false): a tree learned from the integer -1 stores hash(-1) = -2. C122_learned_partial and C122_samples_partial prove it for data whose integers are their own hash and trees without Dirac leaves."
  },
  {
   "property": "C123",
   "status": "proved",
   "theorems": [
    "PM.Props.C123_support",
    "PM.Props.C123_agrees",
    "PM.Props.C123_learned"
   ],
   "note": "Proved for the class of models in the quantifier (EvidenceModel) and programs of any length over the six operations. Outside of it: Dirac leaves, and continuous evidence that is not a single open interval (see C106, C119)."
  },
  {
   "property": "C124",
   "status": "proved",
   "theorems": [
    "PM.Props.C124_mode",
    "PM.Props.C124_learned",
    "PM.Props.C124_same_mode",
    "PM.Props.C124_marginal_intractable"
   ],
   "note": "Proved for the class of models in the quantifier (EvidenceModel, NoNormal) and programs of any length over the six operations. Outside of it: Dirac leaves, (truncated) normal leaves, and continuous evidence that is not a single open interval (see C106, C119). That is_deterministic still answers True afterwards is not claimed: C124_marginal_intractable gives a deterministic model whose marginal is refused."
  },
  {
   "property": "C13",
   "status": "proved",
   "theorems": [
    "PM.Props.C13_support"
   ],
   "note": "Layered smooth circuits; missing variables of an event mean the whole domain."
  },
  {
   "property": "C14",
   "status": "proved",
   "theorems": [
    "PM.Props.C14_is_deterministic",
    "PM.Props.C14_one_child",
    "PM.Props.C14_not_deterministic"
   ],
   "note": "Layered smooth circuits."
  },
  {
   "property": "C15",
   "status": "partial",
   "theorems": [
    "PM.Props.C15_mode_partial",
    "PM.Props.C15_intractable",
    "PM.Props.C15_overlap",
    "PM.Props.C15_full_false"
   ],
   "note": "Proved for all deterministic smooth decomposable circuits whose leaf densities have a maximum. Missing: truncated Gaussian leaves without a maximum; for those the code's answer is refuted (C15_full_false): location on an open lower border gives the far border."
  },
  {
   "property": "C16",
   "status": "proved",
   "theorems": [
    "PM.Props.C16_moment",
    "PM.Props.C16_symbolic_raises",
    "PM.Props.C16_missing_variable_raises",
    "PM.Props.C16_dirac_low",
    "PM.Props.C16_dirac_false"
   ],
   "note": "All normalized layered smooth decomposable circuits with uniform, Gaussian, truncated Gaussian and integer leaves. Dirac leaves are outside of the property's range: order >= 2 is wrong there (C16_dirac_false)."
  },
  {
   "property": "C17",
   "status": "partial",
   "theorems": [
    "PM.Props.C17_variance_partial",
    "PM.Props.C17_full_false"
   ],
   "note": "Missing: circuits with Dirac leaves, for which the statement is false (C17_full_false)."
  },
  {
   "property": "C18",
   "status": "proved",
   "theorems": [
    "PM.Props.C18_cells",
    "PM.Props.C18_positive"
   ],
   "note": "All random outcomes (multinomial counts, shuffles, leaf values) are parameters restricted to possible ones (counts sum to the amount, zero where the weight is zero, shuffles are permutations). Each cell is written exactly once, by a leaf over its variable, and each row has positive likelihood if leaf samples lie in the supports."
  },
  {
   "property": "C19",
   "status": "proved",
   "theorems": [
    "PM.Props.C19_json_round_trip",
    "PM.Props.C19_leaf_round_trip"
   ],
   "note": "Any graph. Variables are represented by their number and JSON floats are exact reals."
  },
  {
   "property": "C20",
   "status": "proved",
   "theorems": [
    "PM.Props.C20_copy",
    "PM.Props.C20_copy_after_queries"
   ],
   "note": "Any graph."
  },
  {
   "property": "C21",
   "status": "proved",
   "theorems": [
    "PM.Props.C21_root_ok",
    "PM.Props.C21_root_valueError",
    "PM.Props.C21_root_indexError",
    "PM.Props.C21_root_exists"
   ],
   "note": ""
  },
  {
   "property": "C22",
   "status": "partial",
   "theorems": [
    "PM.Props.C22_unit_partial",
    "PM.Props.C22_always_true",
    "PM.Props.C22_full_false"
   ],
   "note": "The circuit-level check looks for product units among the leaf units and answers True for every circuit with a root (C22_always_true, C22_full_false). The check of a single product unit is exact."
  },
  {
   "property": "C23",
   "status": "partial",
   "theorems": [
    "PM.Props.C23_translate_partial",
    "PM.Props.C23_full_false",
    "PM.Props.C23_symbolic_raises"
   ],
   "note": "Proved for circuits with an inner root and numeric leaves. False for single-leaf circuits: translate does nothing there (negation proved); AttributeError for symbolic leaves."
  },
  {
   "property": "C24",
   "status": "partial",
   "theorems": [
    "PM.Props.C24_scale_partial",
    "PM.Props.C24_full_false",
    "PM.Props.C24_gaussian_raises",
    "PM.Props.C24_uniform_negative"
   ],
   "note": "Proved for circuits of uniform leaves (positive factors) and integer leaves (non-zero integer factors). The full property is false: Dirac scale adds, Gaussian scale raises TypeError, negative factors invert uniform intervals."
  },
  {
   "property": "C25",
   "status": "partial",
   "theorems": [
    "PM.Props.C25_likelihood",
    "PM.Props.C25_unit",
    "PM.Props.C25_deterministic",
    "PM.Props.C25_from_mixture_partial",
    "PM.Props.C25_round_trip_partial",
    "PM.Props.C25_full_false"
   ],
   "note": "as_deterministic_sum is proved in full (any circuit, any discrete leaf with a non-empty dictionary). The round trip through from_mixture is proved for symbolic variables and for integer keys that are their own hash; it is false for the integer -1 because hash(-1) = -2 (C25_full_false)."
  },
  {
   "property": "C26",
   "status": "proved",
   "theorems": [
    "PM.Props.C26_frame",
    "PM.Props.C26_sum",
    "PM.Props.C26_product",
    "PM.Props.C26_query",
    "PM.Props.C26_again"
   ],
   "note": "for disjoint and for shared (compatible) circuits; adding an existing child replaces its weight"
  },
  {
   "property": "C27",
   "status": "proved",
   "theorems": [
    "PM.Props.C27_interaction",
    "PM.Props.C27_zero_state_kept"
   ],
   "note": "The interaction model is given by its answers to the two kinds of probability queries. The two circuits have no unit in common, u and o are their roots. C27_zero_state_kept shows why positivity of every own state is needed."
  },
  {
   "property": "C28",
   "status": "proved",
   "theorems": [
    "PM.Props.C28_cdf",
    "PM.Props.C28_probability",
    "PM.Props.C28_conditional_overlap",
    "PM.Props.C28_conditional_none",
    "PM.Props.C28_conditional_point",
    "PM.Props.C28_conditional_union"
   ],
   "note": "All continuous leaves (uniform, Gaussian, truncated Gaussian). An interval with two or more pieces meeting the support raises at leaf level."
  },
  {
   "property": "C29",
   "status": "proved",
   "theorems": [
    "PM.Props.C29_uniform_moment"
   ],
   "note": ""
  },
  {
   "property": "C30",
   "status": "partial",
   "theorems": [
    "PM.Props.C30_cdf_sorted_partial",
    "PM.Props.C30_cdf_covering_partial",
    "PM.Props.C30_empty",
    "PM.Props.C30_full_false"
   ],
   "note": "The loop stops at the first key above all rows, so an unsorted dictionary loses mass: the full statement is disproved with a witness; proved for sorted keys and for rows covering all keys."
  },
  {
   "property": "C31",
   "status": "proved",
   "theorems": [
    "PM.Props.C31_conditional"
   ],
   "note": ""
  },
  {
   "property": "C32",
   "status": "partial",
   "theorems": [
    "PM.Props.C32_fit_partial",
    "PM.Props.C32_fit_symbolic",
    "PM.Props.C32_fit_symbolic_unknown",
    "PM.Props.C32_full_false",
    "PM.Props.C32_mass_lost"
   ],
   "note": "hash(-1) = -2 in CPython makes the full statement false for data containing -1; proved for data without -1."
  },
  {
   "property": "C33",
   "status": "proved",
   "theorems": [
    "PM.Props.C33_reads_leave_no_trace",
    "PM.Props.C33_reads",
    "PM.Props.C33_last_written",
    "PM.Props.C33_defaultdict_stores"
   ],
   "note": "For every history of reads and writes: reads change nothing, and every read returns the value written last, the stored value or the default."
  },
  {
   "property": "C34",
   "status": "partial",
   "theorems": [
    "PM.Props.C34_marginal_partial",
    "PM.Props.C34_any_order",
    "PM.Props.C34_full_false"
   ],
   "note": "Proved for requests in the order of the table; C34_any_order states what the code does for every request; C34_full_false: a permuted request mislabels the axes."
  },
  {
   "property": "C35",
   "status": "proved",
   "theorems": [
    "PM.Props.C35_mode",
    "PM.Props.C35_probability",
    "PM.Props.C35_conditional"
   ],
   "note": "Events are disjoint unions of simple events, as random_events keeps them."
  },
  {
   "property": "C36",
   "status": "proved",
   "theorems": [
    "PM.Props.C36_likelihood"
   ],
   "note": "Rows are index coded, as in the code; also smooth, decomposable and zero elsewhere."
  },
  {
   "property": "C37",
   "status": "proved",
   "theorems": [
    "PM.Props.C37_gaussian_moment"
   ],
   "note": ""
  },
  {
   "property": "C38",
   "status": "partial",
   "theorems": [
    "PM.Props.C38_rejection",
    "PM.Props.C38_sample_partial",
    "PM.Props.C38_full_false",
    "PM.Props.C38_acceptance",
    "PM.Props.C38_rounds"
   ],
   "note": "rejection_sample proved; sample proved except that an excluded lower border can be returned (counterexample proved); acceptance probability is proportional to the normal density and at most 1"
  },
  {
   "property": "C39",
   "status": "partial",
   "theorems": [
    "PM.Props.C39_fit",
    "PM.Props.C39_full_false",
    "PM.Props.C39_zero_samples",
    "PM.Props.C39_single"
   ],
   "note": "Proved for min_samples_per_quantile >= 1 and thresholds >= 0: termination, disjoint intervals covering [min, max], determinism, positive likelihoods. For min_samples_per_quantile = 0 every fit of data with two values raises (C39_zero_samples, C39_full_false)."
  },
  {
   "property": "C40",
   "status": "partial",
   "theorems": [
    "PM.Props.C40_weights_partial",
    "PM.Props.C40_full_false"
   ],
   "note": "Proved without weights and for weights given per distinct point in increasing order. Weights given per data point are not sorted along with the data (C40_full_false)."
  },
  {
   "property": "C41",
   "status": "proved",
   "theorems": [
    "PM.Props.C41_fit",
    "PM.Props.C41_likelihood",
    "PM.Props.C41_mass"
   ],
   "note": "For impurities that keep the contract SplitContract (the impurity is an external package); data after preprocess_data."
  },
  {
   "property": "C42",
   "status": "partial",
   "theorems": [
    "PM.Props.C42_decomposable_partial",
    "PM.Props.C42_full_false"
   ],
   "note": "For every outcome of the shuffles, all partition nodes of regions with other than one variable partition their region, and the construction terminates. Regions with one variable reached before the depth is used up get a partition node without children (negation of the full statement proved)."
  },
  {
   "property": "C43",
   "status": "proved",
   "theorems": [
    "PM.Props.C43_round_trip",
    "PM.Props.C43_order"
   ],
   "note": "Real numbers instead of floats."
  },
  {
   "property": "C44",
   "status": "partial",
   "theorems": [
    "PM.Props.C44_joint_partial",
    "PM.Props.C44_positions",
    "PM.Props.C44_single_node",
    "PM.Props.C44_full_false"
   ],
   "note": "Networks of tables with states 0..k-1. C44_positions says exactly what is computed when all states are possible; it agrees with the property when the first row of every table is positive. False otherwise: positions in the message are read as states (C44_full_false), and a one-node network raises."
  },
  {
   "property": "C45",
   "status": "partial",
   "theorems": [
    "PM.Props.C45_forward_partial",
    "PM.Props.C45_full_false"
   ],
   "note": "Full statement C45_full kept and refuted: each row is normalised by its own evidence before the rows are mixed, so messages behind selective evidence are wrong. Proved: the pass succeeds and forward probabilities are right where the evidence at the inner ancestors is equally likely under all states of their parents (always at the root and its children), messages if the own evidence is so too."
  },
  {
   "property": "C46",
   "status": "proved",
   "theorems": [
    "PM.Props.C46_sparse",
    "PM.Props.C46_dense",
    "PM.Props.C46_product",
    "PM.Props.C46_split"
   ],
   "note": "Rows without a finite weight (NaN in jax) are excluded by hypothesis. Input layers are arbitrary log densities per node."
  },
  {
   "property": "C47",
   "status": "partial",
   "theorems": [
    "PM.Props.C47_indices_partial",
    "PM.Props.C47_two_rows",
    "PM.Props.C47_full_false",
    "PM.Props.C47_row_pointers"
   ],
   "note": "Exact characterization of the row lengths for which the code is right; false from three rows on (negation proved). The row pointers of the compressed variant are always right."
  },
  {
   "property": "C48",
   "status": "partial",
   "theorems": [
    "PM.Props.C48_shrink_partial",
    "PM.Props.C48_remove",
    "PM.Props.C48_remove_defined",
    "PM.Props.C48_negative"
   ],
   "note": "Proved for arrays of natural numbers, which is what indices of sparse arrays are; with negative entries the code merges indices (proved)."
  },
  {
   "property": "C49",
   "status": "proved",
   "theorems": [
    "PM.Props.C49_slices",
    "PM.Props.C49_consecutive"
   ],
   "note": "Lengths are len(array), as in the code."
  },
  {
   "property": "C50",
   "status": "partial",
   "theorems": [
    "PM.Props.C50_constant_density_partial",
    "PM.Props.C50_share_of_volume_partial",
    "PM.Props.C50_union_partial",
    "PM.Props.C50_union_density_partial",
    "PM.Props.C50_weights",
    "PM.Props.C50_full_false"
   ],
   "note": "Full statement C50_full is refuted: the lengths of the intervals of a continuous variable are used as log weights, so an event with intervals of different length gets softmax weights (C50_full_false, C50_weights). Proved: one simple event whose continuous intervals have equal lengths per variable gets constant density and every event its share of the volume (C50_share_of_volume_partial); the same for disjoint unions of boxes inside a bounding box with intervals of equal length that each box cuts cleanly, e.g. whenever all boxes and the bounding box have one interval per continuous variable (C50_union_partial), and the likelihood of every point of such an event is one divided by its volume, that of every other point zero (C50_union_density_partial). Missing: unions whose boxes cut several intervals of the bounding box in different ways; there conditional does not update the weights of the sum units (C08)."
  },
  {
   "property": "C51",
   "status": "proved",
   "theorems": [
    "PM.Props.C28_conditional_overlap",
    "PM.Props.C28_conditional_none",
    "PM.Props.C28_conditional_point"
   ],
   "note": "The C28 conditional theorems are stated for all continuous leaves."
  },
  {
   "property": "C52",
   "status": "proved",
   "theorems": [
    "PM.Props.C52_truncated_moment"
   ],
   "note": ""
  },
  {
   "property": "C53",
   "status": "partial",
   "theorems": [
    "PM.Props.C53_bounded_partial",
    "PM.Props.C53_cut",
    "PM.Props.C53_full_false"
   ],
   "note": "holds for bounded truncations; false for one-sided ones: samples stay within 10 standard deviations of the finite border"
  },
  {
   "property": "C54",
   "status": "partial",
   "theorems": [
    "PM.Props.C54_likelihood_partial",
    "PM.Props.C54_raises",
    "PM.Props.C54_full_false"
   ],
   "note": "False of the code: on every circuit with an inner root and a discrete leaf the method raises NetworkXError after replacing one leaf, because as_deterministic_sum has already removed the leaf whose predecessors are then asked for (C54_raises, C54_full_false). Proved: the likelihoods are unchanged in the state left behind."
  },
  {
   "property": "C55",
   "status": "proved",
   "theorems": [
    "PM.Props.C55_fit"
   ],
   "note": "Rows of non-negative integers (numpy's negative indices are not modelled)."
  },
  {
   "property": "C56",
   "status": "partial",
   "theorems": [
    "PM.Props.C56_event_probability_partial",
    "PM.Props.C56_full_false"
   ],
   "note": "Holds if the symbols hash to 0, 1, ...; C56_full_false: a symbol with another hash loses its probability."
  },
  {
   "property": "C57",
   "status": "proved",
   "theorems": [
    "PM.Props.C57_no_better_split",
    "PM.Props.C57_best_split"
   ],
   "note": "For min_samples_per_quantile >= 1, thresholds >= 0 and positive weights."
  },
  {
   "property": "C58",
   "status": "proved",
   "theorems": [
    "PM.Props.C58_uniform",
    "PM.Props.C58_normalize"
   ],
   "note": ""
  },
  {
   "property": "C59",
   "status": "partial",
   "theorems": [
    "PM.Props.C59_after_success_partial",
    "PM.Props.C59_stale_leaf",
    "PM.Props.C59_full_false"
   ],
   "note": "Holds after histories of successful fits; false after a fit that raised an exception."
  },
  {
   "property": "C60",
   "status": "partial",
   "theorems": [
    "PM.Props.C60_positive_partial",
    "PM.Props.C60_full_false"
   ],
   "note": "For integer entries other than -1 and below 2^61-1 in absolute value; false for -1."
  },
  {
   "property": "C61",
   "status": "partial",
   "theorems": [
    "PM.Props.C61_limits_partial",
    "PM.Props.C61_full_false"
   ],
   "note": "max_depth and the stopping rule hold; max_leaves is ignored by the code."
  },
  {
   "property": "C62",
   "status": "partial",
   "theorems": [
    "PM.Props.C62_aligned_partial",
    "PM.Props.C62_full_false"
   ],
   "note": "False for nested product layers: x[layer.variables] is applied to a row that was already sliced. Proved when every child of a product layer is over one variable or over an initial segment of the variables."
  },
  {
   "property": "C63",
   "status": "partial",
   "theorems": [
    "PM.Props.C63_all_rows_partial",
    "PM.Props.C63_single_sample",
    "PM.Props.C63_full_false",
    "PM.Props.C63_average_false"
   ],
   "note": "The chance that all rows lie in an event is its probability to the power amount, and one sample has the circuit's law. The statement per row is false of the code: a sum unit hands out contiguous blocks of rows, so for three samples of a product of two mixtures the rows have chances 100/729, 49/729, 100/729 instead of 81/729."
  },
  {
   "property": "C64",
   "status": "proved",
   "theorems": [
    "PM.Props.C64_from_uniform_mixture",
    "PM.Props.C64_single_leaf"
   ],
   "note": "For mixtures whose root is a sum unit. C64_single_leaf: a circuit that is a single leaf has no leaves in the sense of the API, the result cannot be evaluated."
  },
  {
   "property": "C65",
   "status": "partial",
   "theorems": [
    "PM.Props.C65_factorized_partial",
    "PM.Props.C65_unit_variances",
    "PM.Props.C65_integer",
    "PM.Props.C65_full_false"
   ],
   "note": "The code passes the variance as the scale (standard deviation) of the normal distribution, so the circuit has the squares of the requested variances (C65_factorized_partial, proved for all arguments). C65_full_false: the property as stated fails for variance 4. C65_unit_variances: it holds when all variances are one. C65_integer: integer variables are refused."
  },
  {
   "property": "C66",
   "status": "partial",
   "theorems": [
    "PM.Props.C66_joint",
    "PM.Props.C66_forward_partial",
    "PM.Props.C66_answers_partial",
    "PM.Props.C66_impossible",
    "PM.Props.C66_full_false"
   ],
   "note": "Proved: the joint distribution for every message; the probability of one pass whenever it returns; that the pass returns, with a valid circuit over the node's variables as forward message, for every possible event if the conditional distributions are trees and the event meets each leaf in one interval; impossible events raise. The full claim is false: forward_pass conditions the node's distributions themselves, so asking the same event again gives 1 instead of 1/2 (C66_full_false). Missing: the distribution of forward_message; returning for shared units and split leaves."
  },
  {
   "property": "C67",
   "status": "partial",
   "theorems": [
    "PM.Props.C67_from_nx_partial",
    "PM.Props.C67_converted",
    "PM.Props.C67_support",
    "PM.Props.C67_integer",
    "PM.Props.C67_truncation_lost",
    "PM.Props.C67_counted_twice",
    "PM.Props.C67_leaf_first",
    "PM.Props.C67_full_false"
   ],
   "note": "Proved for every circuit whose leaves are open uniform, Dirac or symbolic and whose levels and scopes satisfy the stated conditions, for every traversal order of the sets. For the other leaves with a layer C67_converted says which density the layers have, and C67_support that without truncated Gaussian leaves the rows of density zero stay the same. False in general: a Gaussian leaf gets its scale increased by 0.01 (C67_full_false), truncated Gaussian leaves lose the truncation (C67_truncation_lost) and count twice beside Gaussian leaves (C67_counted_twice), integer leaves make the conversion raise (C67_integer), and so does a level that starts with a leaf and contains an inner unit (C67_leaf_first)."
  },
  {
   "property": "C68",
   "status": "partial",
   "theorems": [
    "PM.Props.C68_to_nx_partial",
    "PM.Props.C68_dirac",
    "PM.Props.C68_full_false"
   ],
   "note": "Proved for layers without dense sum layers, and without Dirac layers if there is no progress bar; the resulting circuit is well formed and smooth. The full claim is false: DenseSumLayer.to_nx passes exp(log weight) as the log weight (C68_full_false), and DiracDeltaLayer.to_nx raises without a progress bar (C68_dirac)."
  },
  {
   "property": "C69",
   "status": "proved",
   "theorems": [
    "PM.Props.C69_json_round_trip"
   ],
   "note": "For layers whose input layers hold nodes of one class (a layer object is of one class) and sorted variables (the constructor sorts them)."
  },
  {
   "property": "C70",
   "status": "partial",
   "theorems": [
    "PM.Props.C70_joint_partial",
    "PM.Props.C70_full_false",
    "PM.Props.C70_class_first"
   ],
   "note": "The full claim is false of the code: Dirac and discrete layers have no __deepcopy__ (C70_full_false), and with a class variable that sorts before others the likelihood is computed from the wrong columns (C70_class_first). Proved: the new layers describe the joint density for every position of the class, and it is computed correctly if the class comes last, for uniform and Gaussian inputs."
  },
  {
   "property": "C71",
   "status": "partial",
   "theorems": [
    "PM.Props.C71_normalized_partial",
    "PM.Props.C71_described",
    "PM.Props.C71_full_false"
   ],
   "note": "What the layers describe is normalized for every node of every smooth and decomposable layered circuit (C71_described); the computed likelihoods are normalized if nested products are over initial segments of the variables (C71_normalized_partial). The full claim is false of the code, because nested product layers read the wrong columns (C71_full_false). Dirac layers are outside: they have no density."
  },
  {
   "property": "C72",
   "status": "partial",
   "theorems": [
    "PM.Props.C72_circuit_partial",
    "PM.Props.C72_full_false",
    "PM.Props.C72_ignores_variable"
   ],
   "note": "Proved for all graphs with at least 2*k^depth variables, for the likelihood the circuit describes. The full claim is false: splits down to single variables leave partitions without children and the conversion raises an AssertionError (C72_full_false), and the computed likelihood of nested products uses wrong columns (C72_ignores_variable, cf. C62)."
  },
  {
   "property": "C73",
   "status": "partial",
   "theorems": [
    "PM.Props.C73_expected",
    "PM.Props.C73_unbiased_partial",
    "PM.Props.C73_tolerance_partial",
    "PM.Props.C73_consistent",
    "PM.Props.C73_circuits_partial",
    "PM.Props.C73_circuits_consistent",
    "PM.Props.C73_full_false"
   ],
   "note": "The expectation is 2(P(D) - Q(D)) with D the points where p exceeds q by more than the tolerance. It equals the L1 distance for tolerance 0; for a positive tolerance it is between L1 - 2*tolerance*M and L1 where M bounds the measure of the space where they differ. With the default tolerance the full claim is false (two disjoint uniform densities of height 1e-8 are at distance 0). Sampling is an assumption: the samples are independent draws from the density. C73_circuits_partial and C73_circuits_consistent state it for two circuits and the computed likelihoods, without a tolerance."
  },
  {
   "property": "C74",
   "status": "partial",
   "theorems": [
    "PM.Props.C74_uniform_partial",
    "PM.Props.C74_circuits_partial",
    "PM.Props.C74_expected",
    "PM.Props.C74_full_false"
   ],
   "note": "C74_circuits_partial: end to end for two normalized circuits (support, union, uniform_measure_of_event, likelihoods) if the union of the supports consists of disjoint boxes for which C50 holds. C74_expected: the exact expectation whatever the density of the sampled model. Full statement refuted (C74_full_false): for U[0,1] and U[2,4] the sampled model is not uniform (C50_full_false) and two samples give a biased estimate. Sampling is an assumption: the samples are independent draws from the density of the uniform model; union and bounding box belong to random_events."
  },
  {
   "property": "C75",
   "status": "partial",
   "theorems": [
    "PM.Props.C75_table_partial",
    "PM.Props.C75_positions_partial",
    "PM.Props.C75_impossible_state",
    "PM.Props.C75_other_symbols",
    "PM.Props.C75_full_false"
   ],
   "note": "Holds if every parent state is possible and the symbols of the variable are numbered by their positions. An impossible parent state raises AttributeError; symbols whose number is not a position get probability 0."
  },
  {
   "property": "C76",
   "status": "partial",
   "theorems": [
    "PM.Props.C76_shallow_partial",
    "PM.Props.C76_support_partial",
    "PM.Props.C76_scale",
    "PM.Props.C76_full_false"
   ],
   "note": "Proved for all tree-shaped circuits (leaves may be shared): no exception, shallow form, the exact value, same support. The claimed equality of values is false: shallowing reads the edge attribute weight (default 1) instead of log_weight, so inner weights are lost and every value is multiplied with e (C76_full_false). Missing: circuits that share inner units."
  },
  {
   "property": "C77",
   "status": "proved",
   "theorems": [
    "PM.Props.C77_json",
    "PM.Props.C77_roles"
   ],
   "note": "The parameters come back exactly, except keep_sample_indices, which is not written; the roles of the variables are as documented. Variables given as targets, features or dependencies must be among the variables, no feature may be given twice."
  },
  {
   "property": "C78",
   "status": "partial",
   "theorems": [
    "PM.Props.C78_copy_partial",
    "PM.Props.C78_fraction",
    "PM.Props.C78_learns_differently",
    "PM.Props.C78_full_false"
   ],
   "note": "Proved if min_samples_leaf is a number of samples: same parameters but max_leaves, same tree from all data. False in general: max_leaves is dropped, and a fraction is replaced by the number of samples it meant for the last data set (one before learning), so that the copy learns another tree (C78_learns_differently)."
  },
  {
   "property": "C79",
   "status": "proved",
   "theorems": [
    "PM.Props.C79_columns"
   ],
   "note": "All arguments of the external Impurity, for sensible parameters."
  },
  {
   "property": "C80",
   "status": "partial",
   "theorems": [
    "PM.Props.C80_values_partial",
    "PM.Props.C80_lossless_partial",
    "PM.Props.C80_inferred_partial",
    "PM.Props.C80_distance",
    "PM.Props.C80_full_false"
   ],
   "note": "Proved for all variables that can describe their columns, and for inferred variables unless a scaled column is constant. The full statement is false: the standard deviation of a constant column is 0 and the preprocessed data is nan."
  },
  {
   "property": "C81",
   "status": "partial",
   "theorems": [
    "PM.Props.C81_frequencies_partial",
    "PM.Props.C81_inferred",
    "PM.Props.C81_wrong_element",
    "PM.Props.C81_full_false"
   ],
   "note": "Proved for domains whose values are the positions of the elements, among them those of inferred variables. False for other enumerations: preprocessing writes positions, fitting reads values, so an enumeration that starts with 1 gives the probability of an element to the previous one (or raises IndexError)."
  },
  {
   "property": "C82",
   "status": "partial",
   "theorems": [
    "PM.Props.C82_compares",
    "PM.Props.C82_copies",
    "PM.Props.C82_copy",
    "PM.Props.C82_equivalence",
    "PM.Props.C82_distributions",
    "PM.Props.C82_distribution_self",
    "PM.Props.C82_equal_partial",
    "PM.Props.C82_full_false"
   ],
   "note": "Proved: == never fails, is an equivalence and says exactly whether the circuits have the same shape and weights; copies are equal; equal distributions agree. The code violates 'equal circuits have the same distribution': leaves are compared by class only (C82_full_false); C82_equal_partial adds the comparison of the leaves."
  },
  {
   "property": "C83",
   "status": "partial",
   "theorems": [
    "PM.Props.C83_json",
    "PM.Props.C83_copy",
    "PM.Props.C83_equal_partial",
    "PM.Props.C83_full_false",
    "PM.Props.C83_not_equivalence"
   ],
   "note": "JSON and copies proved in full. The code violates 'equal only if the probabilities are equal': np.allclose (C83_full_false); equality is neither symmetric nor transitive."
  },
  {
   "property": "C84",
   "status": "partial",
   "theorems": [
    "PM.Props.C84_rename_partial",
    "PM.Props.C84_full_false"
   ],
   "note": "Proved for circuits whose root is a sum or product. The code violates it for a circuit with one unit: LeafUnit.leaves is empty, so nothing is renamed (C84_full_false)."
  },
  {
   "property": "C85",
   "status": "partial",
   "theorems": [
    "PM.Props.C85_fit_partial",
    "PM.Props.C85_points",
    "PM.Props.C85_inferred_partial",
    "PM.Props.C85_full_false"
   ],
   "note": "Proved for integers that are their own hash, and for scaled variables if the float columns vary. The code violates the full statement for the integer -1, whose hash is -2 (C85_full_false)."
  },
  {
   "property": "C86",
   "status": "partial",
   "theorems": [
    "PM.Props.C86_frequencies_partial",
    "PM.Props.C86_range_partial",
    "PM.Props.C86_full_false"
   ],
   "note": "Proved for data whose integer entries are their own hash; for others the code violates the property (C86_full_false: one row with the integer -1)."
  },
  {
   "property": "C87",
   "status": "partial",
   "theorems": [
    "PM.Props.C87_discrete_partial",
    "PM.Props.C87_continuous_partial",
    "PM.Props.C87_dirac_raises",
    "PM.Props.C87_single_leaf_raises",
    "PM.Props.C87_joint_partial",
    "PM.Props.C87_none",
    "PM.Props.C87_full_false"
   ],
   "note": "The full statement is false for continuous variables: if the marginal of the base class is a single leaf, from_uniform_mixture returns a sum unit without children on which all queries raise, and a Dirac leaf among several leaves raises AttributeError (both theorems, with learned trees that reach them). Proved: discrete variables, continuous variables with only uniform leaves and more than one leaf, several variables, foreign variables."
  },
  {
   "property": "C88",
   "status": "proved",
   "theorems": [
    "PM.Props.C88_pruned",
    "PM.Props.C88_defined",
    "PM.Props.mix_pruned"
   ],
   "note": "C88_pruned is the characterisation, C88_defined shows that its quantities exist for every tree and event, mix_pruned is a concrete case in which the result differs from Bayes' rule (C08). Circuits with shared units and leaves cut into several pieces are outside the quantifier."
  },
  {
   "property": "C89",
   "status": "partial",
   "theorems": [
    "PM.Props.C89_assembled",
    "PM.Props.C89_circuit",
    "PM.Props.C89_conditional_partial",
    "PM.Props.C89_full_false"
   ],
   "note": "Proved for circuits of sparse sum, product, uniform and Gaussian layers with aligned nesting. The full statement is false: for dense sum layers and discrete layers the number of trainable parameters counts rows, and the likelihood raises (C89_full_false)."
  },
  {
   "property": "C90",
   "status": "proved",
   "theorems": [
    "PM.Props.C90_contents",
    "PM.Props.C90_valid",
    "PM.Props.C90_likelihood"
   ],
   "note": "Contents, validity and likelihood, for all units of all layered circuits."
  },
  {
   "property": "C91",
   "status": "partial",
   "theorems": [
    "PM.Props.C91_paths_partial",
    "PM.Props.C91_full_false"
   ],
   "note": "One entry per path from the root is proved for all layered circuits. The entries are false: the code reads the edge attribute weight, which no circuit has, and every entry is 1 (C91_full_false)."
  },
  {
   "property": "C92",
   "status": "partial",
   "theorems": [
    "PM.Props.C92_hash_partial",
    "PM.Props.C92_order",
    "PM.Props.C92_gaussian",
    "PM.Props.C92_full_false"
   ],
   "note": "Proved for uniform and Dirac distributions and for discrete distributions that store their outcomes in the same order, for every hash of tuples. The full claim is false: the hash of a discrete distribution depends on the order of its outcomes while == does not (C92_full_false, C92_order), and Gaussians are not hashable (C92_gaussian)."
  },
  {
   "property": "C93",
   "status": "proved",
   "theorems": [
    "PM.Props.C93_remove",
    "PM.Props.C93_embed",
    "PM.Props.C93_sample"
   ],
   "note": "Exact entries and positions of the results. Numbers are exact; NaN is modelled as none."
  },
  {
   "property": "C94",
   "status": "proved",
   "theorems": [
    "PM.Props.C94_exact",
    "PM.Props.C94_empty",
    "PM.Props.C94_rooted",
    "PM.Props.C94_sources",
    "PM.Props.C94_rootless"
   ],
   "note": "networkx's topological generations and breadth-first component search are modelled and proved to decide absence of cycles and connectedness. C94_rootless: a valid circuit may have two roots."
  },
  {
   "property": "C95",
   "status": "proved",
   "theorems": [
    "PM.Props.C95_confined",
    "PM.Props.C95_union"
   ],
   "note": "C95_confined for simple events (including conditioning the result again), C95_union for unions of disjoint simple events. Circuits with shared units and leaves cut into several pieces are outside the quantifier."
  },
  {
   "property": "C96",
   "status": "proved",
   "theorems": [
    "PM.Props.C96_union",
    "PM.Props.C88_defined"
   ],
   "note": "C96_union is the characterisation (P and T are the probabilities and remaining weights for each simple event, C the pruned values of C88; they exist by C88_defined). The returned number is wrong for unions (C07_full_false)."
  },
  {
   "property": "C97",
   "status": "proved",
   "theorems": [
    "PM.Props.C97_likelihood",
    "PM.Props.C97_support",
    "PM.Props.C97_bayes"
   ],
   "note": "C97_likelihood characterises the result in all cases covered; C97_bayes is Bayes' rule under proportionality (it fails without, C08_full_false). Excluded, as for C08/C88: Dirac leaves, events that cut single points or several intervals out of a continuous leaf, shared units."
  },
  {
   "property": "C98",
   "status": "proved",
   "theorems": [
    "PM.Props.C98_training",
    "PM.Props.C98_classifier",
    "PM.Props.C98_objective",
    "PM.Props.C98_computed",
    "PM.Props.C98_run",
    "PM.Props.C98_run_classifier",
    "PM.Props.C98_run_unique"
   ],
   "note": "Numbers are reals or -inf; differentiation and the optimizer are arbitrary functions with finite values. C98_computed needs nested products over initial segments (C62). C98_run assumes an optimizer that returns one update per trained number, as optax does."
  },
  {
   "property": "C99",
   "status": "partial",
   "theorems": [
    "PM.Props.C99_integer_labels_partial",
    "PM.Props.C99_ignores",
    "PM.Props.C99_unordered",
    "PM.Props.C99_full_false"
   ],
   "note": "False of the code: log_probs[y] picks rows by label, so the objective is the mean log-likelihood of rows 0..m-1 under all nodes (C99_integer_labels_partial), all rows behind the number of classes are ignored (C99_ignores) and exchanging labels changes nothing (C99_unordered). The exact objective is proved instead of the claimed one."
  }
 ]
}
