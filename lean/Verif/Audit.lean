import Verif.Props.Aliasing
import Verif.Props.Arrays
import Verif.Props.Batch
import Verif.Props.BayesianNetwork
import Verif.Props.CircuitNode
import Verif.Props.CircuitNodeTotal
import Verif.Props.Classify
import Verif.Props.Commute
import Verif.Props.Conditional
import Verif.Props.ConditionalDensity
import Verif.Props.ConditionalExamples
import Verif.Props.ConditionalPieces
import Verif.Props.Confined
import Verif.Props.Consistent
import Verif.Props.Convert
import Verif.Props.ConvertLeaves
import Verif.Props.ConvertMixed
import Verif.Props.Copies
import Verif.Props.Coupling
import Verif.Props.DetSum
import Verif.Props.Equality
import Verif.Props.Evidence
import Verif.Props.EvidenceOrder
import Verif.Props.ExampleTools
import Verif.Props.Examples
import Verif.Props.Factorized
import Verif.Props.FrameFit
import Verif.Props.FromTable
import Verif.Props.Hash
import Verif.Props.Histories
import Verif.Props.Independence
import Verif.Props.Indices
import Verif.Props.Interaction
import Verif.Props.Jpt
import Verif.Props.JptCondition
import Verif.Props.JptMarginal
import Verif.Props.JptMode
import Verif.Props.JptMoments
import Verif.Props.JptPredict
import Verif.Props.JptRange
import Verif.Props.JptSupport
import Verif.Props.JptUni
import Verif.Props.LayerFit
import Verif.Props.LayerJson
import Verif.Props.LayerMass
import Verif.Props.Layers
import Verif.Props.LeafConditional
import Verif.Props.LeafDiscrete
import Verif.Props.Likeliest
import Verif.Props.Marginal
import Verif.Props.Mode
import Verif.Props.Moments
import Verif.Props.MonteCarlo
import Verif.Props.MonteCarloBias
import Verif.Props.MonteCarloCircuit
import Verif.Props.Mount
import Verif.Props.MountNetwork
import Verif.Props.Move
import Verif.Props.Multinomial
import Verif.Props.MultinomialJson
import Verif.Props.NetworkCircuit
import Verif.Props.NodesWeights
import Verif.Props.Normalize
import Verif.Props.Nyga
import Verif.Props.NygaMixture
import Verif.Props.NygaObject
import Verif.Props.Plain
import Verif.Props.Posterior
import Verif.Props.PosteriorMode
import Verif.Props.PosteriorSupport
import Verif.Props.Preprocess
import Verif.Props.Probability
import Verif.Props.Pruned
import Verif.Props.Queries
import Verif.Props.Refit
import Verif.Props.RegionCircuit
import Verif.Props.RegionGraph
import Verif.Props.Rename
import Verif.Props.Sample
import Verif.Props.SampleLaw
import Verif.Props.Sampling
import Verif.Props.Shallow
import Verif.Props.ShallowL1
import Verif.Props.ShallowL1Examples
import Verif.Props.Simplify
import Verif.Props.Structure
import Verif.Props.Subgraph
import Verif.Props.Support
import Verif.Props.ToNx
import Verif.Props.Transform
import Verif.Props.TreeConfig
import Verif.Props.UniformBox
import Verif.Props.UniformDensity
import Verif.Props.UniformMeasure
import Verif.Props.UniformUnion
import Verif.Props.Unions
import Verif.Props.Valid

/-! The axioms of the property theorems (generated from MANIFEST.json).  The build log of this file shows them. -/

#print axioms PM.Props.C01_loglikelihood
#print axioms PM.Props.C01_formula_exists_unique
#print axioms PM.Props.C02_pass_eq_recursion_partial
#print axioms PM.Props.C02_full_false
#print axioms PM.Props.C03_history_independent
#print axioms PM.Props.C03_loglikelihood_indep
#print axioms PM.Props.C04_probability_is_integral
#print axioms PM.Props.C05_bounds
#print axioms PM.Props.C05_universal
#print axioms PM.Props.C05_impossible
#print axioms PM.Props.C05_monotone
#print axioms PM.Props.C06_decomposition_independent
#print axioms PM.Props.C06_sum_over_parts
#print axioms PM.Props.C07_simple
#print axioms PM.Props.C07_none
#print axioms PM.Props.C07_empty
#print axioms PM.Props.C07_full_false
#print axioms PM.Props.C08_balanced_partial
#print axioms PM.Props.C08_proportional_partial
#print axioms PM.Props.C08_union_partial
#print axioms PM.Props.C08_full_false
#print axioms PM.Props.C08_pieces_false
#print axioms PM.Props.C09_history_partial
#print axioms PM.Props.C09_queries
#print axioms PM.Props.C09_results
#print axioms PM.Props.C09_copy_needed
#print axioms PM.Props.C09_full_false
#print axioms PM.Props.C10_none
#print axioms PM.Props.C10_tree_partial
#print axioms PM.Props.C10_probability_partial
#print axioms PM.Props.C10_value_partial
#print axioms PM.Props.C10_full_false
#print axioms PM.Props.C100_row_by_row
#print axioms PM.Props.C100_likelihood
#print axioms PM.Props.C100_stacked
#print axioms PM.Props.C100_missing_column
#print axioms PM.Props.C101_cdf_partial
#print axioms PM.Props.C101_integral_partial
#print axioms PM.Props.C101_monotone_partial
#print axioms PM.Props.C101_symbolic_raises
#print axioms PM.Props.C101_other_rows
#print axioms PM.Props.C101_full_false
#print axioms PM.Props.C102_step_by_step
#print axioms PM.Props.C102_any_order
#print axioms PM.Props.mix_observed
#print axioms PM.Props.C103_samples
#print axioms PM.Props.C104_first_partial
#print axioms PM.Props.C104_jpt_first
#print axioms PM.Props.C104_nyga_again
#print axioms PM.Props.C104_nyga_forever
#print axioms PM.Props.C104_jpt_again
#print axioms PM.Props.C104_jpt_failed_first
#print axioms PM.Props.C104_full_false
#print axioms PM.Props.C104_jpt_full_false
#print axioms PM.Props.C104_nyga_new
#print axioms PM.Props.C104_jpt_new
#print axioms PM.Props.C105_order_partial
#print axioms PM.Props.C105_certain
#print axioms PM.Props.C105_repeated
#print axioms PM.Props.C105_full_false
#print axioms PM.Props.C106_history
#print axioms PM.Props.C106_distribution
#print axioms PM.Props.C106_exact
#print axioms PM.Props.C106_samples
#print axioms PM.Props.C107_independent
#print axioms PM.Props.C107_irrelevant
#print axioms PM.Props.C108_order_partial
#print axioms PM.Props.C108_marginals
#print axioms PM.Props.C108_full_false
#print axioms PM.Props.C109_density
#print axioms PM.Props.C109_likelihood
#print axioms PM.Props.C109_moment
#print axioms PM.Props.C109_variance
#print axioms PM.Props.C109_samples
#print axioms PM.Props.C11_tree_partial
#print axioms PM.Props.C11_value_partial
#print axioms PM.Props.C11_queries_partial
#print axioms PM.Props.C11_full_false_shared
#print axioms PM.Props.C11_full_false_zero_weight
#print axioms PM.Props.C11_full_false_layering
#print axioms PM.Props.C110_json
#print axioms PM.Props.C110_copy
#print axioms PM.Props.C110_unfitted
#print axioms PM.Props.C110_learned
#print axioms PM.Props.C110_no_variable
#print axioms PM.Props.C111_deterministic_partial
#print axioms PM.Props.C111_mode_partial
#print axioms PM.Props.C111_shared
#print axioms PM.Props.C111_clash
#print axioms PM.Props.C111_full_false
#print axioms PM.Props.C112_probability_partial
#print axioms PM.Props.C112_moments_partial
#print axioms PM.Props.C112_mode_partial
#print axioms PM.Props.C112_scale_partial
#print axioms PM.Props.C112_full_false
#print axioms PM.Props.C112_scale_full_false
#print axioms PM.Props.C113_integer_partial
#print axioms PM.Props.C113_symbolic
#print axioms PM.Props.C113_table
#print axioms PM.Props.C113_quantiles
#print axioms PM.Props.C113_weighted_quantiles
#print axioms PM.Props.C113_full_false
#print axioms PM.Props.C114_l1_partial
#print axioms PM.Props.C114_full_false
#print axioms PM.Props.C115_paired_partial
#print axioms PM.Props.C115_normalized
#print axioms PM.Props.C115_full_false
#print axioms PM.Props.C116_law_partial
#print axioms PM.Props.C116_target_partial
#print axioms PM.Props.C116_bayes_partial
#print axioms PM.Props.C116_none
#print axioms PM.Props.C116_agreeing
#print axioms PM.Props.C116_full_false
#print axioms PM.Props.C117_moment_partial
#print axioms PM.Props.C117_expectation_partial
#print axioms PM.Props.C117_variance_partial
#print axioms PM.Props.C117_symbolic_raises
#print axioms PM.Props.C117_zero_variance
#print axioms PM.Props.C117_full_false
#print axioms PM.Props.C118_possible_partial
#print axioms PM.Props.C118_samples_partial
#print axioms PM.Props.C118_integers_partial
#print axioms PM.Props.C118_full_false
#print axioms PM.Props.C119_prediction_partial
#print axioms PM.Props.C119_joint_partial
#print axioms PM.Props.C119_example
#print axioms PM.Props.C119_full_false
#print axioms PM.Props.C12_normalize
#print axioms PM.Props.C12_sums_to_one
#print axioms PM.Props.C12_idempotent
#print axioms PM.Props.C12_twice
#print axioms PM.Props.C12_ratios
#print axioms PM.Props.C120_values_partial
#print axioms PM.Props.C120_samples_partial
#print axioms PM.Props.C120_predictions_partial
#print axioms PM.Props.C120_example
#print axioms PM.Props.C121_possible
#print axioms PM.Props.C121_training_row_partial
#print axioms PM.Props.C121_full_false
#print axioms PM.Props.C122_possible
#print axioms PM.Props.C122_learned_partial
#print axioms PM.Props.C122_samples_partial
#print axioms PM.Props.C122_full_false
#print axioms PM.Props.C123_support
#print axioms PM.Props.C123_agrees
#print axioms PM.Props.C123_learned
#print axioms PM.Props.C124_mode
#print axioms PM.Props.C124_learned
#print axioms PM.Props.C124_same_mode
#print axioms PM.Props.C124_marginal_intractable
#print axioms PM.Props.C13_support
#print axioms PM.Props.C14_is_deterministic
#print axioms PM.Props.C14_one_child
#print axioms PM.Props.C14_not_deterministic
#print axioms PM.Props.C15_mode_partial
#print axioms PM.Props.C15_intractable
#print axioms PM.Props.C15_overlap
#print axioms PM.Props.C15_full_false
#print axioms PM.Props.C16_moment
#print axioms PM.Props.C16_symbolic_raises
#print axioms PM.Props.C16_missing_variable_raises
#print axioms PM.Props.C16_dirac_low
#print axioms PM.Props.C16_dirac_false
#print axioms PM.Props.C17_variance_partial
#print axioms PM.Props.C17_full_false
#print axioms PM.Props.C18_cells
#print axioms PM.Props.C18_positive
#print axioms PM.Props.C19_json_round_trip
#print axioms PM.Props.C19_leaf_round_trip
#print axioms PM.Props.C20_copy
#print axioms PM.Props.C20_copy_after_queries
#print axioms PM.Props.C21_root_ok
#print axioms PM.Props.C21_root_valueError
#print axioms PM.Props.C21_root_indexError
#print axioms PM.Props.C21_root_exists
#print axioms PM.Props.C22_unit_partial
#print axioms PM.Props.C22_always_true
#print axioms PM.Props.C22_full_false
#print axioms PM.Props.C23_translate_partial
#print axioms PM.Props.C23_full_false
#print axioms PM.Props.C23_symbolic_raises
#print axioms PM.Props.C24_scale_partial
#print axioms PM.Props.C24_full_false
#print axioms PM.Props.C24_gaussian_raises
#print axioms PM.Props.C24_uniform_negative
#print axioms PM.Props.C25_likelihood
#print axioms PM.Props.C25_unit
#print axioms PM.Props.C25_deterministic
#print axioms PM.Props.C25_from_mixture_partial
#print axioms PM.Props.C25_round_trip_partial
#print axioms PM.Props.C25_full_false
#print axioms PM.Props.C26_frame
#print axioms PM.Props.C26_sum
#print axioms PM.Props.C26_product
#print axioms PM.Props.C26_query
#print axioms PM.Props.C26_again
#print axioms PM.Props.C27_interaction
#print axioms PM.Props.C27_zero_state_kept
#print axioms PM.Props.C28_cdf
#print axioms PM.Props.C28_probability
#print axioms PM.Props.C28_conditional_overlap
#print axioms PM.Props.C28_conditional_none
#print axioms PM.Props.C28_conditional_point
#print axioms PM.Props.C28_conditional_union
#print axioms PM.Props.C29_uniform_moment
#print axioms PM.Props.C30_cdf_sorted_partial
#print axioms PM.Props.C30_cdf_covering_partial
#print axioms PM.Props.C30_empty
#print axioms PM.Props.C30_full_false
#print axioms PM.Props.C31_conditional
#print axioms PM.Props.C32_fit_partial
#print axioms PM.Props.C32_fit_symbolic
#print axioms PM.Props.C32_fit_symbolic_unknown
#print axioms PM.Props.C32_full_false
#print axioms PM.Props.C32_mass_lost
#print axioms PM.Props.C33_reads_leave_no_trace
#print axioms PM.Props.C33_reads
#print axioms PM.Props.C33_last_written
#print axioms PM.Props.C33_defaultdict_stores
#print axioms PM.Props.C34_marginal_partial
#print axioms PM.Props.C34_any_order
#print axioms PM.Props.C34_full_false
#print axioms PM.Props.C35_mode
#print axioms PM.Props.C35_probability
#print axioms PM.Props.C35_conditional
#print axioms PM.Props.C36_likelihood
#print axioms PM.Props.C37_gaussian_moment
#print axioms PM.Props.C38_rejection
#print axioms PM.Props.C38_sample_partial
#print axioms PM.Props.C38_full_false
#print axioms PM.Props.C38_acceptance
#print axioms PM.Props.C38_rounds
#print axioms PM.Props.C39_fit
#print axioms PM.Props.C39_full_false
#print axioms PM.Props.C39_zero_samples
#print axioms PM.Props.C39_single
#print axioms PM.Props.C40_weights_partial
#print axioms PM.Props.C40_full_false
#print axioms PM.Props.C41_fit
#print axioms PM.Props.C41_likelihood
#print axioms PM.Props.C41_mass
#print axioms PM.Props.C42_decomposable_partial
#print axioms PM.Props.C42_full_false
#print axioms PM.Props.C43_round_trip
#print axioms PM.Props.C43_order
#print axioms PM.Props.C44_joint_partial
#print axioms PM.Props.C44_positions
#print axioms PM.Props.C44_single_node
#print axioms PM.Props.C44_full_false
#print axioms PM.Props.C45_forward_partial
#print axioms PM.Props.C45_full_false
#print axioms PM.Props.C46_sparse
#print axioms PM.Props.C46_dense
#print axioms PM.Props.C46_product
#print axioms PM.Props.C46_split
#print axioms PM.Props.C47_indices_partial
#print axioms PM.Props.C47_two_rows
#print axioms PM.Props.C47_full_false
#print axioms PM.Props.C47_row_pointers
#print axioms PM.Props.C48_shrink_partial
#print axioms PM.Props.C48_remove
#print axioms PM.Props.C48_remove_defined
#print axioms PM.Props.C48_negative
#print axioms PM.Props.C49_slices
#print axioms PM.Props.C49_consecutive
#print axioms PM.Props.C50_constant_density_partial
#print axioms PM.Props.C50_share_of_volume_partial
#print axioms PM.Props.C50_union_partial
#print axioms PM.Props.C50_union_density_partial
#print axioms PM.Props.C50_weights
#print axioms PM.Props.C50_full_false
#print axioms PM.Props.C28_conditional_overlap
#print axioms PM.Props.C28_conditional_none
#print axioms PM.Props.C28_conditional_point
#print axioms PM.Props.C52_truncated_moment
#print axioms PM.Props.C53_bounded_partial
#print axioms PM.Props.C53_cut
#print axioms PM.Props.C53_full_false
#print axioms PM.Props.C54_likelihood_partial
#print axioms PM.Props.C54_raises
#print axioms PM.Props.C54_full_false
#print axioms PM.Props.C55_fit
#print axioms PM.Props.C56_event_probability_partial
#print axioms PM.Props.C56_full_false
#print axioms PM.Props.C57_no_better_split
#print axioms PM.Props.C57_best_split
#print axioms PM.Props.C58_uniform
#print axioms PM.Props.C58_normalize
#print axioms PM.Props.C59_after_success_partial
#print axioms PM.Props.C59_stale_leaf
#print axioms PM.Props.C59_full_false
#print axioms PM.Props.C60_positive_partial
#print axioms PM.Props.C60_full_false
#print axioms PM.Props.C61_limits_partial
#print axioms PM.Props.C61_full_false
#print axioms PM.Props.C62_aligned_partial
#print axioms PM.Props.C62_full_false
#print axioms PM.Props.C63_all_rows_partial
#print axioms PM.Props.C63_single_sample
#print axioms PM.Props.C63_full_false
#print axioms PM.Props.C63_average_false
#print axioms PM.Props.C64_from_uniform_mixture
#print axioms PM.Props.C64_single_leaf
#print axioms PM.Props.C65_factorized_partial
#print axioms PM.Props.C65_unit_variances
#print axioms PM.Props.C65_integer
#print axioms PM.Props.C65_full_false
#print axioms PM.Props.C66_joint
#print axioms PM.Props.C66_forward_partial
#print axioms PM.Props.C66_answers_partial
#print axioms PM.Props.C66_impossible
#print axioms PM.Props.C66_full_false
#print axioms PM.Props.C67_from_nx_partial
#print axioms PM.Props.C67_converted
#print axioms PM.Props.C67_support
#print axioms PM.Props.C67_integer
#print axioms PM.Props.C67_truncation_lost
#print axioms PM.Props.C67_counted_twice
#print axioms PM.Props.C67_leaf_first
#print axioms PM.Props.C67_full_false
#print axioms PM.Props.C68_to_nx_partial
#print axioms PM.Props.C68_dirac
#print axioms PM.Props.C68_full_false
#print axioms PM.Props.C69_json_round_trip
#print axioms PM.Props.C70_joint_partial
#print axioms PM.Props.C70_full_false
#print axioms PM.Props.C70_class_first
#print axioms PM.Props.C71_normalized_partial
#print axioms PM.Props.C71_described
#print axioms PM.Props.C71_full_false
#print axioms PM.Props.C72_circuit_partial
#print axioms PM.Props.C72_full_false
#print axioms PM.Props.C72_ignores_variable
#print axioms PM.Props.C73_expected
#print axioms PM.Props.C73_unbiased_partial
#print axioms PM.Props.C73_tolerance_partial
#print axioms PM.Props.C73_consistent
#print axioms PM.Props.C73_circuits_partial
#print axioms PM.Props.C73_circuits_consistent
#print axioms PM.Props.C73_full_false
#print axioms PM.Props.C74_uniform_partial
#print axioms PM.Props.C74_circuits_partial
#print axioms PM.Props.C74_expected
#print axioms PM.Props.C74_full_false
#print axioms PM.Props.C75_table_partial
#print axioms PM.Props.C75_positions_partial
#print axioms PM.Props.C75_impossible_state
#print axioms PM.Props.C75_other_symbols
#print axioms PM.Props.C75_full_false
#print axioms PM.Props.C76_shallow_partial
#print axioms PM.Props.C76_support_partial
#print axioms PM.Props.C76_scale
#print axioms PM.Props.C76_full_false
#print axioms PM.Props.C77_json
#print axioms PM.Props.C77_roles
#print axioms PM.Props.C78_copy_partial
#print axioms PM.Props.C78_fraction
#print axioms PM.Props.C78_learns_differently
#print axioms PM.Props.C78_full_false
#print axioms PM.Props.C79_columns
#print axioms PM.Props.C80_values_partial
#print axioms PM.Props.C80_lossless_partial
#print axioms PM.Props.C80_inferred_partial
#print axioms PM.Props.C80_distance
#print axioms PM.Props.C80_full_false
#print axioms PM.Props.C81_frequencies_partial
#print axioms PM.Props.C81_inferred
#print axioms PM.Props.C81_wrong_element
#print axioms PM.Props.C81_full_false
#print axioms PM.Props.C82_compares
#print axioms PM.Props.C82_copies
#print axioms PM.Props.C82_copy
#print axioms PM.Props.C82_equivalence
#print axioms PM.Props.C82_distributions
#print axioms PM.Props.C82_distribution_self
#print axioms PM.Props.C82_equal_partial
#print axioms PM.Props.C82_full_false
#print axioms PM.Props.C83_json
#print axioms PM.Props.C83_copy
#print axioms PM.Props.C83_equal_partial
#print axioms PM.Props.C83_full_false
#print axioms PM.Props.C83_not_equivalence
#print axioms PM.Props.C84_rename_partial
#print axioms PM.Props.C84_full_false
#print axioms PM.Props.C85_fit_partial
#print axioms PM.Props.C85_points
#print axioms PM.Props.C85_inferred_partial
#print axioms PM.Props.C85_full_false
#print axioms PM.Props.C86_frequencies_partial
#print axioms PM.Props.C86_range_partial
#print axioms PM.Props.C86_full_false
#print axioms PM.Props.C87_discrete_partial
#print axioms PM.Props.C87_continuous_partial
#print axioms PM.Props.C87_dirac_raises
#print axioms PM.Props.C87_single_leaf_raises
#print axioms PM.Props.C87_joint_partial
#print axioms PM.Props.C87_none
#print axioms PM.Props.C87_full_false
#print axioms PM.Props.C88_pruned
#print axioms PM.Props.C88_defined
#print axioms PM.Props.mix_pruned
#print axioms PM.Props.C89_assembled
#print axioms PM.Props.C89_circuit
#print axioms PM.Props.C89_conditional_partial
#print axioms PM.Props.C89_full_false
#print axioms PM.Props.C90_contents
#print axioms PM.Props.C90_valid
#print axioms PM.Props.C90_likelihood
#print axioms PM.Props.C91_paths_partial
#print axioms PM.Props.C91_full_false
#print axioms PM.Props.C92_hash_partial
#print axioms PM.Props.C92_order
#print axioms PM.Props.C92_gaussian
#print axioms PM.Props.C92_full_false
#print axioms PM.Props.C93_remove
#print axioms PM.Props.C93_embed
#print axioms PM.Props.C93_sample
#print axioms PM.Props.C94_exact
#print axioms PM.Props.C94_empty
#print axioms PM.Props.C94_rooted
#print axioms PM.Props.C94_sources
#print axioms PM.Props.C94_rootless
#print axioms PM.Props.C95_confined
#print axioms PM.Props.C95_union
#print axioms PM.Props.C96_union
#print axioms PM.Props.C88_defined
#print axioms PM.Props.C97_likelihood
#print axioms PM.Props.C97_support
#print axioms PM.Props.C97_bayes
#print axioms PM.Props.C98_training
#print axioms PM.Props.C98_classifier
#print axioms PM.Props.C98_objective
#print axioms PM.Props.C98_computed
#print axioms PM.Props.C98_run
#print axioms PM.Props.C98_run_classifier
#print axioms PM.Props.C98_run_unique
#print axioms PM.Props.C99_integer_labels_partial
#print axioms PM.Props.C99_ignores
#print axioms PM.Props.C99_unordered
#print axioms PM.Props.C99_full_false
