import Verif.Props.Ascent
import Verif.Props.BucketSize
import Verif.Props.BucketTree
import Verif.Props.Chain
import Verif.Props.CliqueSize
import Verif.Props.Complete
import Verif.Props.Construct
import Verif.Props.Converge
import Verif.Props.Decision
import Verif.Props.DecisionNet
import Verif.Props.Draw
import Verif.Props.Dtype
import Verif.Props.Dynamic
import Verif.Props.Exact
import Verif.Props.Exchange
import Verif.Props.Factor
import Verif.Props.FactorQuery
import Verif.Props.Fit
import Verif.Props.Forget
import Verif.Props.ForgetMany
import Verif.Props.ForgetManySoft
import Verif.Props.ForgetSoft
import Verif.Props.ForgetTwo
import Verif.Props.Generator
import Verif.Props.Greedy
import Verif.Props.HashNet
import Verif.Props.Heap
import Verif.Props.HeapQuery
import Verif.Props.IO
import Verif.Props.JoinTree
import Verif.Props.LeftOut
import Verif.Props.Network
import Verif.Props.Node
import Verif.Props.PosteriorDraw
import Verif.Props.RangeTree
import Verif.Props.Rate
import Verif.Props.Requests
import Verif.Props.Rewrite
import Verif.Props.Rounded
import Verif.Props.RoundedAscent
import Verif.Props.RoundedDecision
import Verif.Props.RoundedDynamic
import Verif.Props.RoundedRange
import Verif.Props.RoundedSampling
import Verif.Props.RoundedSoftFeedback
import Verif.Props.RoundedTree
import Verif.Props.Sampling
import Verif.Props.Scale
import Verif.Props.Sensitive
import Verif.Props.Sensor
import Verif.Props.Separation
import Verif.Props.Sharp
import Verif.Props.Targets
import Verif.Props.Unroll
import Verif.Props.UnrollGraph
import Verif.Props.Utility
import Verif.Props.WideOrder

/-! Generated by `tools/manifest.py`: the axioms of every claimed theorem. -/

#print axioms Primo.C01_mul_pointwise
#print axioms Primo.C02_mul_comm
#print axioms Primo.C02_mul_assoc
#print axioms Primo.C02_mul_trivial
#print axioms Primo.C03_add_pointwise
#print axioms Primo.C03_add_comm
#print axioms Primo.C03_add_assoc
#print axioms Primo.C04_marginalize
#print axioms Primo.C04_marginalize_perm
#print axioms Primo.C04_marginalize_error
#print axioms Primo.C05_distributive
#print axioms Primo.C06_div_partial
#print axioms Primo.C06_mul_div_cancel
#print axioms Primo.C06_invert_trivial_zero_refuted
#print axioms Primo.C07_normalize
#print axioms Primo.C08_sub_table
#print axioms Primo.C08_get_potential
#print axioms Primo.C08_single
#print axioms Primo.C09_from_node
#print axioms Primo.C10_hard_evidence
#print axioms Primo.C10_soft_evidence
#print axioms Primo.C10_hard_eq_one_hot
#print axioms Primo.C100_greedy
#print axioms Primo.C100_bound_attained
#print axioms Primo.C100_independent
#print axioms Primo.C100_separated
#print axioms Primo.C100_certificate
#print axioms Primo.C100_global_refuted
#print axioms Primo.C100_single_refuted
#print axioms Primo.C101_exact
#print axioms Primo.C101_never_fails
#print axioms Primo.C11_soft_posterior
#print axioms Primo.C12_from_samples
#print axioms Primo.C13_naive_exact
#print axioms Primo.C14_bucket_exact
#print axioms Primo.C14_bucket_exact_default
#print axioms Primo.C15_routes_agree
#print axioms Primo.C16_hard_eq_one_hot
#print axioms Primo.C17_posterior_distribution
#print axioms Primo.C18_joint_sums_to_one
#print axioms Primo.C18_closed_prior
#print axioms Primo.C18_root_prior
#print axioms Primo.C19_min_degree_order
#print axioms Primo.C20_random_order
#print axioms Primo.C20_matches_graph
#print axioms Primo.C21_tree_exact_partial
#print axioms Primo.C21_chordless_refuted
#print axioms Primo.C22_each_table_once
#print axioms Primo.C22_name_collision_refuted
#print axioms Primo.C23_junction_tree_partial
#print axioms Primo.C23_chordless_refuted
#print axioms Primo.C24_polytree_exact
#print axioms Primo.C25_calibrated
#print axioms Primo.C25_created
#print axioms Primo.C26_no_accumulation
#print axioms Primo.C26_evidence_alone
#print axioms Primo.C27_query
#print axioms Primo.C28_soft_posterior
#print axioms Primo.C28_soft_evidence
#print axioms Primo.C28_jeffrey
#print axioms Primo.C28_two_targets_refuted
#print axioms Primo.C29_root_component_partial
#print axioms Primo.C29_single_clique_partial
#print axioms Primo.C29_left_out
#print axioms Primo.C29_evidence_ignored
#print axioms Primo.C29_disconnected_refuted
#print axioms Primo.C29_refused_refuted
#print axioms Primo.C30_coherent_partial
#print axioms Primo.C30_usable_consistent
#print axioms Primo.C30_duplicate_edge_refuted
#print axioms Primo.C30_stale_parents_refuted
#print axioms Primo.C30_stale_after_clear_refuted
#print axioms Primo.C30_utility_parent_refuted
#print axioms Primo.C30_remove_decision_parent_refuted
#print axioms Primo.C30_rename_by_object_refuted
#print axioms Primo.C33_collision_refuted
#print axioms Primo.C31_valid_history_partial
#print axioms Primo.C31_change_resets_partial
#print axioms Primo.C32_rejections_partial
#print axioms Primo.C32_atomic_partial
#print axioms Primo.C37_rejected_decision_refuted
#print axioms Primo.C33_rename_partial
#print axioms Primo.C33_queries
#print axioms Primo.C34_remove_node_partial
#print axioms Primo.C34_remove_edge_partial
#print axioms Primo.C34_decision_edge_refuted
#print axioms Primo.C35_set_probability
#print axioms Primo.C35_read_back
#print axioms Primo.C36_get_probability
#print axioms Primo.C36_fast_path_agrees
#print axioms Primo.C37_set_decision_partial
#print axioms Primo.C37_fully_mixed_partial
#print axioms Primo.C37_rejected_decision_zeroes
#print axioms Primo.C38_one_write_partial
#print axioms Primo.C38_last_write_partial
#print axioms Primo.C38_reading_partial
#print axioms Primo.C38_parentless_refuted
#print axioms Primo.C39_wheel
#print axioms Primo.C39_all_zero
#print axioms Primo.C40_markov_blanket
#print axioms Primo.C40_constant
#print axioms Primo.C41_gibbs_invariant
#print axioms Primo.C41_posterior_mass
#print axioms Primo.C42_detailed_balance
#print axioms Primo.C42_mh_invariant
#print axioms Primo.C43_chain_legal_partial
#print axioms Primo.C43_all_observed
#print axioms Primo.C43_all_observed_refuted
#print axioms Primo.C44_forward_evidence
#print axioms Primo.C44_forward_joint
#print axioms Primo.C44_forward_legal
#print axioms Primo.C45_marginals_partial
#print axioms Primo.C45_all_observed_refuted
#print axioms Primo.C46_prior_time
#print axioms Primo.C46_soft_time
#print axioms Primo.C46_prior_pending
#print axioms Primo.C46_soft_pending
#print axioms Primo.C46_prior_unroll_none
#print axioms Primo.C46_soft_unroll_none
#print axioms Primo.C46_prior_unroll_pending_partial
#print axioms Primo.C46_soft_unroll_pending_partial
#print axioms Primo.C46_prior_no_leak
#print axioms Primo.C46_soft_no_leak
#print axioms Primo.C46_prior_fresh
#print axioms Primo.C46_soft_fresh
#print axioms Primo.C46_rejected_evidence_used
#print axioms Primo.C47_prior_feedback_partial
#print axioms Primo.C47_slices_unique
#print axioms Primo.C47_chordless_refuted
#print axioms Primo.C48_single_transition_partial
#print axioms Primo.C48_several_transitions_partial
#print axioms Primo.C48_soft_feedback_partial
#print axioms Primo.C48_chordless_refuted
#print axioms Primo.C48_two_transitions_refuted
#print axioms Primo.C49_add_transition_partial
#print axioms Primo.C49_key_error_refuted
#print axioms Primo.C49_add_transitions
#print axioms Primo.C49_create
#print axioms Primo.C50_generalized_VE
#print axioms Primo.C50_all_eliminated
#print axioms Primo.C50_order_independent
#print axioms Primo.C51_expected_utility
#print axioms Primo.C51_no_decisions
#print axioms Primo.C51_expected_utility_partial
#print axioms Primo.C51_unnormalised_refuted
#print axioms Primo.C51_illegal_decisions
#print axioms Primo.C52_local_optimum
#print axioms Primo.C52_average
#print axioms Primo.C52_dominant_partial
#print axioms Primo.C52_single_partial
#print axioms Primo.C52_separable_partial
#print axioms Primo.C52_information_error
#print axioms Primo.C52_refuted
#print axioms Primo.C52_fixed_refuted
#print axioms Primo.C98_worst_refuted
#print axioms Primo.C53_round_trip_partial
#print axioms Primo.C53_exact_partial
#print axioms Primo.C53_posterior_partial
#print axioms Primo.C53_unnamed_refuted
#print axioms Primo.C53_empty_property_refuted
#print axioms Primo.C53_no_outcomes_refuted
#print axioms Primo.C53_utility_refuted
#print axioms Primo.C53_control_character_refuted
#print axioms Primo.C54_write
#print axioms Primo.C54_read
#print axioms Primo.C55_round_trip_partial
#print axioms Primo.C55_no_slash_refuted
#print axioms Primo.C55_other_networks_refuted
#print axioms Primo.C55_folder_in_name_refuted
#print axioms Primo.C55_node_objects_refuted
#print axioms Primo.C56_api_to_posterior
#print axioms Primo.C57_law_connected_partial
#print axioms Primo.C57_law_disconnected
#print axioms Primo.C57_law_iff
#print axioms Primo.C57_mh_law
#print axioms Primo.C57_mh_law_iff
#print axioms Primo.C57_mh_consistent
#print axioms Primo.C57_consistent_connected_partial
#print axioms Primo.C57_disconnected
#print axioms Primo.C57_mh_consistent_iff
#print axioms Primo.C57_consistent_iff_partial
#print axioms Primo.C57_no_evidence_iff
#print axioms Primo.C57_gibbs_law_partial
#print axioms Primo.C57_gibbs_consistent
#print axioms Primo.C57_gibbs_consistent_iff
#print axioms Primo.C57_gibbs_stuck
#print axioms Primo.C57_gibbs_refuted
#print axioms Primo.C57_positive_connected
#print axioms Primo.C57_law_partial
#print axioms Primo.C57_law_tendsto_partial
#print axioms Primo.C57_consistent_partial
#print axioms Primo.C57_consistent_tendsto_partial
#print axioms Primo.C57_positive_tables
#print axioms Primo.C57_law_refuted
#print axioms Primo.C57_consistent_refuted
#print axioms Primo.C58_burn_in
#print axioms Primo.C58_restart
#print axioms Primo.C58_one_step
#print axioms Primo.C58_law
#print axioms Primo.C59_no_sharing_partial
#print axioms Primo.C59_exposed_write
#print axioms Primo.C59_exposed_normalize
#print axioms Primo.C59_get_potential_refuted
#print axioms Primo.C60_operands_partial
#print axioms Primo.C60_other_broken
#print axioms Primo.C60_other_returned
#print axioms Primo.C60_other_transposed
#print axioms Primo.C61_reuse_partial
#print axioms Primo.C61_same_names
#print axioms Primo.C61_order_after
#print axioms Primo.C61_unchanged_iff
#print axioms Primo.C61_order_refuted
#print axioms Primo.C62_bucket_refuses_partial
#print axioms Primo.C62_bucket_refuses_default_partial
#print axioms Primo.C62_naive_refuses_partial
#print axioms Primo.C62_naive_ignores
#print axioms Primo.C62_naive_unknown_refuted
#print axioms Primo.C62_tree_refuses
#print axioms Primo.C62_naive_repeated
#print axioms Primo.C62_repeated
#print axioms Primo.C62_scope_iff
#print axioms Primo.C62_repeated_refuted
#print axioms Primo.C63_exact
#print axioms Primo.C63_naive
#print axioms Primo.C63_bucket
#print axioms Primo.C63_bucket_default
#print axioms Primo.C63_error
#print axioms Primo.C63_sum
#print axioms Primo.C63_same_outcome
#print axioms Primo.C63_tree_history
#print axioms Primo.C63_tree
#print axioms Primo.C63_negative_refuted
#print axioms Primo.C63_underflow_refuted
#print axioms Primo.C64_consistent_partial
#print axioms Primo.C64_expected_utility_partial
#print axioms Primo.C64_live_partial
#print axioms Primo.C64_edge_resets
#print axioms Primo.C64_utility_parent
#print axioms Primo.C64_same_name_refuted
#print axioms Primo.C64_repeated_edge_refuted
#print axioms Primo.C64_set_values_refuted
#print axioms Primo.C64_cycle_refuted
#print axioms Primo.C65_disciplined_partial
#print axioms Primo.C65_for_each
#print axioms Primo.C65_for_each_total
#print axioms Primo.C65_copies
#print axioms Primo.C65_list
#print axioms Primo.C65_list_point_mass
#print axioms Primo.C65_list_refuted
#print axioms Primo.C65_write_back
#print axioms Primo.C65_write_back_refuted
#print axioms Primo.C65_lazy
#print axioms Primo.C65_after_end
#print axioms Primo.C65_no_evidence
#print axioms Primo.C65_marginals_law
#print axioms Primo.C65_marginals_all
#print axioms Primo.C66_programs_agree
#print axioms Primo.C66_call
#print axioms Primo.C66_trees_safe
#print axioms Primo.C66_kept
#print axioms Primo.C66_same_answer
#print axioms Primo.C66_posterior
#print axioms Primo.C66_tree_kept
#print axioms Primo.C66_tree_exact
#print axioms Primo.C67_node_calls_partial
#print axioms Primo.C67_set_probability
#print axioms Primo.C67_utilities
#print axioms Primo.C67_assignment_refuted
#print axioms Primo.C67_elimination
#print axioms Primo.C67_trees
#print axioms Primo.C67_programs_partial
#print axioms Primo.C67_float_programs
#print axioms Primo.C67_queries
#print axioms Primo.C67_int_statements
#print axioms Primo.C67_counts
#print axioms Primo.C67_programs_refuted
#print axioms Primo.C67_decisions_partial
#print axioms Primo.C67_expected_utility_partial
#print axioms Primo.C67_utility_tables_refuted
#print axioms Primo.C68_sharp
#print axioms Primo.C68_any
#print axioms Primo.C68_exact
#print axioms Primo.C68_wrong
#print axioms Primo.C68_cycle_other_exact
#print axioms Primo.C68_cycle_default_wrong
#print axioms Primo.C68_parts_default_wrong
#print axioms Primo.C68_parts_other_exact
#print axioms Primo.C69_names
#print axioms Primo.C69_fresh
#print axioms Primo.C69_readers
#print axioms Primo.C69_separate
#print axioms Primo.C69_coherent
#print axioms Primo.C69_shared_rename_refuted
#print axioms Primo.C69_shared_edge_refuted
#print axioms Primo.C70_unrolled
#print axioms Primo.C70_prior_feedback_partial
#print axioms Primo.C70_single_transition_partial
#print axioms Primo.C70_naive_partial
#print axioms Primo.C70_soft_feedback_partial
#print axioms Primo.C70_soft_single_transition_partial
#print axioms Primo.C70_separated_partial
#print axioms Primo.C70_soft_separated_partial
#print axioms Primo.C70_methods_agree_partial
#print axioms Primo.C70_two_transitions_refuted
#print axioms Primo.C70_soft_target_refuted
#print axioms Primo.C71_relevant_partial
#print axioms Primo.C71_remove_leaf
#print axioms Primo.C71_unset_table_refuted
#print axioms Primo.C72_independent
#print axioms Primo.C72_more_evidence
#print axioms Primo.C72_local_markov
#print axioms Primo.C72_markov_blanket
#print axioms Primo.C72_no_common_ancestor
#print axioms Primo.C72_scattered
#print axioms Primo.C73_complete
#print axioms Primo.C73_iff
#print axioms Primo.C73_symm
#print axioms Primo.C74_marginalize
#print axioms Primo.C74_update
#print axioms Primo.C74_product_rule
#print axioms Primo.C74_bayes
#print axioms Primo.C74_total_probability
#print axioms Primo.C74_evidence_order
#print axioms Primo.C75_scale
#print axioms Primo.C75_iff
#print axioms Primo.C75_constant
#print axioms Primo.C75_replace
#print axioms Primo.C75_one_hot
#print axioms Primo.C75_negative_refuted
#print axioms Primo.C76_same_answers
#print axioms Primo.C76_get_potential
#print axioms Primo.C76_hard_evidence
#print axioms Primo.C77_cliques
#print axioms Primo.C77_complete_iff
#print axioms Primo.C77_tables
#print axioms Primo.C77_polytree
#print axioms Primo.C77_polytree_memory
#print axioms Primo.C77_loop_refuted
#print axioms Primo.C78_odds
#print axioms Primo.C78_factor
#print axioms Primo.C78_distance
#print axioms Primo.C78_support
#print axioms Primo.C78_one_table
#print axioms Primo.C78_odds_sharp
#print axioms Primo.C78_distance_sharp
#print axioms Primo.C78_additive_refuted
#print axioms Primo.C79_affine
#print axioms Primo.C79_decisions
#print axioms Primo.C79_close
#print axioms Primo.C79_regret
#print axioms Primo.C79_regret_sharp
#print axioms Primo.C79_tables
#print axioms Primo.C79_monotone_refuted
#print axioms Primo.C80_sensor
#print axioms Primo.C80_array
#print axioms Primo.C80_exists
#print axioms Primo.C80_two_reports
#print axioms Primo.C80_hard_only
#print axioms Primo.C80_interface
#print axioms Primo.C81_forward_legal
#print axioms Primo.C81_chain_legal
#print axioms Primo.C81_marginals_legal
#print axioms Primo.C81_precision_needed
#print axioms Primo.C81_first_outcome
#print axioms Primo.C81_gibbs_change
#print axioms Primo.C81_mh_change
#print axioms Primo.C81_forward
#print axioms Primo.C81_double
#print axioms Primo.C81_law
#print axioms Primo.C81_estimate
#print axioms Primo.C81_gibbs_trap
#print axioms Primo.C82_exact
#print axioms Primo.C82_expected_utility
#print axioms Primo.C82_bounded
#print axioms Primo.C82_nonneg
#print axioms Primo.C82_local_optimum
#print axioms Primo.C82_same_decisions
#print axioms Primo.C82_regret
#print axioms Primo.C82_double
#print axioms Primo.C82_cancellation_refuted
#print axioms Primo.C82_decision_refuted
#print axioms Primo.C83_tree_error_partial
#print axioms Primo.C83_prior_error_partial
#print axioms Primo.C83_soft_error_partial
#print axioms Primo.C83_relative_error_partial
#print axioms Primo.C84_exchange
#print axioms Primo.C84_reached
#print axioms Primo.C84_count
#print axioms Primo.C84_left_out_refuted
#print axioms Primo.C85_prior_feedback_error_partial
#print axioms Primo.C85_linear
#print axioms Primo.C85_exact
#print axioms Primo.C86_soft_feedback_error_partial
#print axioms Primo.C86_linear
#print axioms Primo.C86_exact
#print axioms Primo.C87_naive_double
#print axioms Primo.C87_bucket_double
#print axioms Primo.C87_naive
#print axioms Primo.C87_bucket
#print axioms Primo.C87_bucket_default
#print axioms Primo.C87_unlimited
#print axioms Primo.C87_room_refuted
#print axioms Primo.C88_bucket_table
#print axioms Primo.C88_no_larger
#print axioms Primo.C88_loop
#print axioms Primo.C88_query
#print axioms Primo.C88_naive
#print axioms Primo.C88_perfect
#print axioms Primo.C88_polytree_partial
#print axioms Primo.C88_married_partial
#print axioms Primo.C88_default_order_refuted
#print axioms Primo.C89_program
#print axioms Primo.C89_reachable_iff
#print axioms Primo.C89_build_and_query
#print axioms Primo.C89_cycle_accepted
#print axioms Primo.C90_law
#print axioms Primo.C90_tables
#print axioms Primo.C90_share
#print axioms Primo.C90_burn_in
#print axioms Primo.C90_marginals
#print axioms Primo.C90_samples
#print axioms Primo.C90_rounded_law
#print axioms Primo.C90_slow
#print axioms Primo.C91_tree_double
#print axioms Primo.C91_prior_double
#print axioms Primo.C91_tree_range
#print axioms Primo.C91_prior_range
#print axioms Primo.C91_room_refuted
#print axioms Primo.C92_forget
#print axioms Primo.C92_forget_any
#print axioms Primo.C92_fade_vanishes
#print axioms Primo.C92_start_forgotten_partial
#print axioms Primo.C92_rounding_bounded_partial
#print axioms Primo.C92_copy_refuted
#print axioms Primo.C92_two_transitions_refuted
#print axioms Primo.C93_forget
#print axioms Primo.C93_forget_any
#print axioms Primo.C93_start_forgotten_partial
#print axioms Primo.C93_rounding_bounded_partial
#print axioms Primo.C93_copy_refuted
#print axioms Primo.C93_two_transitions_refuted
#print axioms Primo.C94_forget
#print axioms Primo.C94_forget_any
#print axioms Primo.C94_blur
#print axioms Primo.C94_blur_vanishes
#print axioms Primo.C94_start_forgotten_partial
#print axioms Primo.C94_rounding_bounded_partial
#print axioms Primo.C95_forget
#print axioms Primo.C95_forget_any
#print axioms Primo.C95_start_forgotten_partial
#print axioms Primo.C95_rounding_bounded_partial
#print axioms Primo.C96_met
#print axioms Primo.C96_iff
#print axioms Primo.C96_prior
#print axioms Primo.C96_observations
#print axioms Primo.C96_graph
#print axioms Primo.C96_tree
#print axioms Primo.C96_observations_tree
#print axioms Primo.C97_estimate
#print axioms Primo.C97_forced
#print axioms Primo.C97_posterior
#print axioms Primo.C97_prior
#print axioms Primo.C97_missed
#print axioms Primo.C97_iff
#print axioms Primo.C97_effect_refuted
#print axioms Primo.C98_ascent
#print axioms Primo.C98_converges
#print axioms Primo.C98_global_refuted
#print axioms Primo.C99_rounded
#print axioms Primo.C99_exact
#print axioms Primo.C99_lower_refuted
#print axioms Primo.C99_restless_refuted
