#!/usr/bin/env python3
"""Write MANIFEST.json.  Each entry: property, status, theorem names (namespace Primo), note."""
import json, pathlib
C = []
def claim(p, status, thms, note):
    C.append({"property": p, "status": status, "theorems": ["Primo." + t for t in thms.split()], "note": note})

claim("C01", "proved", "C01_mul_pointwise", "All compatible factors, all set iteration orders.")
claim("C02", "proved", "C02_mul_comm C02_mul_assoc C02_mul_trivial", "Equality of tables up to axis order; the unit laws give the identical factor.")
claim("C03", "proved", "C03_add_pointwise C03_add_comm C03_add_assoc", "")
claim("C04", "proved", "C04_marginalize C04_marginalize_perm C04_marginalize_error", "")
claim("C05", "proved", "C05_distributive", "")
claim("C06", "partial", "C06_div_partial C06_mul_div_cancel C06_invert_trivial_zero_refuted", "Proved except for a scope-less divisor with potential 0, where the code raises FloatingPointError instead of the documented 1/0=0; this is proved as a refutation.")
claim("C07", "proved", "C07_normalize", "")
claim("C08", "proved", "C08_sub_table C08_get_potential C08_single", "")
claim("C10", "proved", "C10_hard_evidence C10_soft_evidence C10_hard_eq_one_hot", "")
claim("C11", "proved", "C11_soft_posterior", "")
claim("C12", "proved", "C12_from_samples", "")
claim("C13", "proved", "C13_naive_exact", "All consistent networks, legal evidence, queries and set iteration orders.")
claim("C14", "proved", "C14_bucket_exact C14_bucket_exact_default", "Any permutation of the nodes as order, and the default min-degree order (which needs the graph's succ lists to agree with the parent lists).")
claim("C15", "proved", "C15_routes_agree", "")
claim("C16", "proved", "C16_hard_eq_one_hot", "The two calls return identical results, errors included.")
claim("C17", "proved", "C17_posterior_distribution", "")
claim("C18", "proved", "C18_joint_sums_to_one C18_closed_prior C18_root_prior", "")
claim("C19", "proved", "C19_min_degree_order", "Also fixes the tie-break: the first node of minimal degree in network order.")

claim("C09", "proved", "C09_from_node", "")
claim("C35", "proved", "C35_set_probability C35_read_back", "")
claim("C36", "proved", "C36_get_probability C36_fast_path_agrees", "")
claim("C37", "partial", "C37_set_decision_partial C37_fully_mixed_partial C37_rejected_decision_zeroes C37_rejected_decision_refuted", "The rules written by accepted calls are characterised for all tables.  The clause that a rejected decision leaves the rule alone is false: the table is zeroed before ValueError is raised (proved).")
claim("C38", "partial", "C38_one_write_partial C38_last_write_partial C38_reading_partial C38_parentless_refuted", "Proved for every utility node whose table is an array.  A parentless utility node that never got a table holds the Python int 1, and both accessors raise TypeError (proved).")

claim("C20", "proved", "C20_random_order C20_matches_graph", "First theorem: every history of calls, including those that break other invariants.  Second: after good histories the list is the graph's node list.")
claim("C30", "partial", "C30_coherent_partial C30_usable_consistent C30_duplicate_edge_refuted C30_stale_parents_refuted C30_stale_after_clear_refuted C30_utility_parent_refuted C30_remove_decision_parent_refuted C30_rename_by_object_refuted C33_collision_refuted", "Proved for all histories of calls in which no call is one of the seven kinds that the code handles wrongly (predicate Good).  For each excluded kind a concrete history breaking the invariant is proved.")
claim("C31", "partial", "C31_valid_history_partial C31_change_resets_partial", "Proved for all good histories (see C30); the excluded calls are those refuted under C30.")
claim("C32", "partial", "C32_rejections_partial C32_atomic_partial C30_rename_by_object_refuted C30_utility_parent_refuted C37_rejected_decision_refuted", "All rejections named in the property are proved; C32_atomic_partial extends this to every raising call after a good history.  Raising calls that do change the state (rename by object, edge from a utility node, set_decision) are refuted.")
claim("C33", "partial", "C33_rename_partial C33_queries C33_collision_refuted", "Unused new names: structure, tables and all query answers are preserved.  A name already in use loses a node (proved).")
claim("C34", "partial", "C34_remove_node_partial C34_remove_edge_partial C34_decision_edge_refuted C30_remove_decision_parent_refuted", "Proved when the affected children are chance nodes; decision and utility children make the calls fail (proved).")
claim("C56", "proved", "C56_api_to_posterior", "Composition of C30 with C13/C14 for all good histories that end in a network of chance/decision nodes with outcomes and no self loop.")

claim("C21", "partial", "C21_tree_exact_partial C21_chordless_refuted", "Exact for all connected networks whose tree has the running intersection property (in particular if the elimination order, default or explicit, needs no fill-in), all legal evidence, all queries inside a clique, all set orders.  False in general: create_jointree adds no fill-in edges (concrete five-node counterexample proved).  By C68 it is false for all tables together whenever the running intersection property fails, so the hypothesis cannot be weakened.")
claim("C22", "proved", "C22_each_table_once C22_name_collision_refuted", "All networks and complete orders, chordal or not, provided the joined clique names are unambiguous; the collision of joined names is refuted separately.")
claim("C23", "partial", "C23_junction_tree_partial C23_chordless_refuted", "Proved for orders that need no fill-in edges; false in general (proved).  For the other orders counting edges decides (C68).")
claim("C24", "proved", "C24_polytree_exact", "All connected polytrees with the default order.")
claim("C25", "proved", "C25_calibrated C25_created", "All junction trees with non-negative tables; second theorem: created trees, with or without evidence, satisfy the hypotheses.")
claim("C26", "proved", "C26_no_accumulation C26_evidence_alone", "All histories of calls, successful or failed.")
claim("C27", "proved", "C27_query", "All calibrated junction trees.")
claim("C28", "proved", "C28_soft_posterior C28_soft_evidence C28_jeffrey C28_two_targets_refuted", "All connected networks whose tree has the running intersection property, after any history of calls.  Also proved: the effect of any number of observations and target arrays, and that other posteriors follow Jeffrey's rule.  Several targets are in general not met (witness).")
claim("C29", "partial", "C29_root_component_partial C29_single_clique_partial C29_left_out C29_evidence_ignored C29_disconnected_refuted C29_refused_refuted", "Exact in the component of the first clique and in components with one clique; false for other components (proved; by C68_any for every network that has other components).  What the other cliques answer is described exactly: the normalised product of the tables and evidence they are the first to contain, or ValueError.")

claim("C39", "proved", "C39_wheel C39_all_zero", "Lebesgue measure of the random numbers that select each outcome; random.random() is idealised to a real number of [0,1).")
claim("C40", "proved", "C40_markov_blanket C40_constant", "All consistent networks of discrete nodes, all states.")
claim("C41", "proved", "C41_gibbs_invariant C41_posterior_mass", "Both modes, all legal hard evidence.  Single-site steps need an unobserved node (they raise IndexError otherwise, see C43).")
claim("C42", "proved", "C42_detailed_balance C42_mh_invariant", "")
claim("C43", "partial", "C43_chain_legal_partial C43_all_observed C43_all_observed_refuted", "Proved for all networks, evidence, samplers, burn-in and sample counts except single-site chains with every node observed, which raise IndexError (proved).")
claim("C44", "proved", "C44_forward_evidence C44_forward_joint C44_forward_legal", "Includes the correctness of the topological sort of networkx < 2.4.")
claim("C45", "partial", "C45_marginals_partial C45_all_observed_refuted", "Same exception as C43.")
claim("C46", "partial", "C46_prior_time C46_soft_time C46_prior_pending C46_soft_pending C46_prior_unroll_none C46_soft_unroll_none C46_prior_unroll_pending_partial C46_soft_unroll_pending_partial C46_prior_no_leak C46_soft_no_leak C46_prior_fresh C46_soft_fresh C46_rejected_evidence_used", "Time, pending flag and absence of leaks: all histories, including raising calls.  unroll() uses the evidence of the preceding set_evidence; if a set_evidence raised in between, it uses the part of the rejected evidence entered before the exception (witness).")
claim("C47", "partial", "C47_prior_feedback_partial C47_slices_unique C47_chordless_refuted", "All histories of allowed calls, for slices on which the factor tree is exact (see C21); false otherwise (witness).  Between unroll and set_evidence the queries refer to the slice just left.")
claim("C48", "partial", "C48_single_transition_partial C48_several_transitions_partial C48_soft_feedback_partial C48_chordless_refuted C48_two_transitions_refuted", "All histories of calls whose evidence can be met, for slices on which the factor tree is exact (see C21); false otherwise (witness).  The general theorem covers any number of transitions; if the targets are independent in the 2-TBN all of them get the marginals of their sources (C48_several_transitions_partial), otherwise not (C48_two_transitions_refuted, C96).")
claim("C49", "partial", "C49_add_transition_partial C49_key_error_refuted C49_add_transitions C49_create", "Everything but the class of one exception: KeyError instead of StructureError when node_p is missing from the 2-TBN only (malformed format string, witness).")
claim("C50", "proved", "C50_generalized_VE C50_all_eliminated C50_order_independent", "Non-negative probability parts, all elimination orders, all iteration orders of the factor sets; if the probability total is 0 the code raises FloatingPointError (part of the theorem).  Also for a part of the variables.")
claim("C51", "partial", "C51_expected_utility C51_no_decisions C51_expected_utility_partial C51_unnormalised_refuted C51_illegal_decisions", "The code returns the weighted sum divided by the total weight, for all consistent networks with non-negative tables, and fails exactly when the total weight is 0; this is the claimed sum for normalised tables, and is not for others (witness).")
claim("C52", "partial", "C52_local_optimum C52_average C52_dominant_partial C52_single_partial C52_separable_partial C52_information_error C52_refuted C52_fixed_refuted C98_worst_refuted", "Optimal for a single decision, for dominant decisions and for separable expected utilities; false for interacting decisions (witness).  What the code computes in general (maximiser of the average over the other decisions) is proved.  Decisions with information raise ValueError (proved).")
claim("C53", "partial", "C53_round_trip_partial C53_exact_partial C53_posterior_partial C53_unnamed_refuted C53_empty_property_refuted C53_no_outcomes_refuted C53_utility_refuted C53_control_character_refuted", "All coherent networks of chance nodes whose names and outcomes are non-empty XML text, all property settings; exact unless the network name or a property is the empty string, which comes back as None (proved; the default network name is the empty string).  Utility nodes, nodes without outcomes and control characters make write or parse raise (proved).")
claim("C54", "proved", "C54_write C54_read", "All arities and numbers of parents.  Reading: every accepted document with one definition per variable.  Numbers are written with an arbitrary notation that float() reads back (FloatText).")
claim("C55", "partial", "C55_round_trip_partial C55_no_slash_refuted C55_other_networks_refuted C55_folder_in_name_refuted C55_node_objects_refuted", "Proved for paths that are empty or end with a slash, names without slash, transitions given by name, any file system.  False for every other path (proved for all: OSError, or silently the networks of another specification), for names with a folder in them, and for transitions given by node objects.")
claim("C57", "partial", "C57_law_connected_partial C57_law_disconnected C57_law_iff C57_mh_law C57_mh_law_iff C57_mh_consistent C57_consistent_connected_partial C57_disconnected C57_mh_consistent_iff C57_consistent_iff_partial C57_no_evidence_iff C57_gibbs_law_partial C57_gibbs_consistent C57_gibbs_consistent_iff C57_gibbs_stuck C57_gibbs_refuted C57_positive_connected C57_law_partial C57_law_tendsto_partial C57_consistent_partial C57_consistent_tendsto_partial C57_positive_tables C57_law_refuted C57_consistent_refuted", "The unrestricted statement is false, and settled by equivalences.  Metropolis-Hastings: law and estimates converge if and only if the possible instantiations are connected by changes of single variables (C57_mh_law_iff, C57_mh_consistent_iff), with exponential rate for the law and error probability at most c/(N eps^2), c independent of burn-in, N and eps.  The same for both samplers from possible initial states (C57_law_iff), without evidence (C57_no_evidence_iff), and whenever forward sampling cannot contradict the evidence (C57_consistent_iff_partial); positive tables are a special case.  False in general: a node that copies its parent (C57_law_refuted, C57_consistent_refuted), and for Gibbs sampling also when the possible states are connected, because it can stay in an impossible initial state forever (C57_gibbs_refuted).  C57_gibbs_consistent_iff is the equivalence for Gibbs sampling: the possible states are connected, and from wherever the chain can get from an initial state it can still get to a possible one.  Single-site chains need an unobserved node (see C43).")
claim("C58", "proved", "C58_burn_in C58_restart C58_one_step C58_law", "Equality of the random programs, so for every outcome of the random numbers, errors included.")

claim("C59", "partial", "C59_no_sharing_partial C59_exposed_write C59_exposed_normalize C59_get_potential_refuted", "Proved for all programs that do not call get_potential() without variables: contents and exceptions agree with a semantics in which nothing is shared.  get_potential() returns the table itself; proved what a later assignment or normalize does in that case, and that the unrestricted statement is false.")
claim("C60", "partial", "C60_operands_partial C60_other_broken C60_other_returned C60_other_transposed", "Proved for the default useOther=False.  With useOther=True the operand 'other' is modified: it gets variables without labels (get_potential raises KeyError), is itself returned and overwritten if self has no variables, or has its table silently transposed.")
claim("C61", "partial", "C61_reuse_partial C61_same_names C61_order_after C61_unchanged_iff C61_order_refuted", "Proved: every legal query of any sequence of calls on one list object is answered exactly.  The list itself is reordered by the call (the query variables are moved to its end); proved how, and that it is unchanged exactly if it already ends with them.")
claim("C62", "partial", "C62_bucket_refuses_partial C62_bucket_refuses_default_partial C62_naive_refuses_partial C62_naive_ignores C62_naive_unknown_refuted C62_tree_refuses C62_naive_repeated C62_repeated C62_scope_iff C62_repeated_refuted", "Proved for bucket_marginals and set_evidence, and for outcomes and array lengths in naive_marginals.  False: naive_marginals silently drops unknown names from query and evidence (proved as an equation for all networks), and a repeated query variable makes bucket_marginals return more variables than asked for, or powers of the distribution.  Repetitions do not matter to naive_marginals.")
claim("C63", "proved", "C63_exact C63_naive C63_bucket C63_bucket_default C63_error C63_sum C63_same_outcome C63_tree_history C63_tree C63_negative_refuted C63_underflow_refuted", "The arithmetic is a parameter with bounded relative error.  Both conditions are needed: C63_negative_refuted (a negative table entry, which set_cpd accepts) and C63_underflow_refuted (for any smallest positive number there is possible evidence for which the answer is a table of zeros).")
claim("C64", "partial", "C64_consistent_partial C64_expected_utility_partial C64_live_partial C64_edge_resets C64_utility_parent C64_same_name_refuted C64_repeated_edge_refuted C64_set_values_refuted C64_cycle_refuted", "Proved for histories without the calls listed in DGood.  DecisionNetwork checks nothing: a second node of the same name, a repeated edge, an edge from a utility node and set_values of a parent are accepted and break the network (witnesses, one with a silently wrong expected utility); cycles are accepted too.")
claim("C65", "partial", "C65_disciplined_partial C65_for_each C65_for_each_total C65_copies C65_list C65_list_point_mass C65_list_refuted C65_write_back C65_write_back_refuted C65_lazy C65_after_end C65_no_evidence C65_marginals_law C65_marginals_all", "Proved for programs that read a state before asking for the next one and write only into their own dicts, which covers MCMC.marginals.  False for others: all states are the same dict object, so list(chain) is a list of equal states and writing into a state changes the evidence (witnesses).  The network is not changed while generators run.")
claim("C66", "proved", "C66_programs_agree C66_call C66_trees_safe C66_kept C66_same_answer C66_posterior C66_tree_kept C66_tree_exact", "All programs, with no restriction on get_potential(): which variables share a table is part of the value semantics.  C66_tree_exact is about trees of connected networks with the running intersection property, like C21; the other theorems hold for all networks.")
claim("C67", "partial", "C67_node_calls_partial C67_set_probability C67_utilities C67_assignment_refuted C67_elimination C67_trees C67_programs_partial C67_float_programs C67_queries C67_int_statements C67_counts C67_programs_refuted C67_decisions_partial C67_expected_utility_partial C67_utility_tables_refuted", "Proved in full for exact inference (C67_elimination, C67_trees) and for programs that only ask queries, use trees, multiply, divide and marginalise (C67_queries).  False for assignments to tables of integers, normalize of such tables, and sums of tables of truth values: refuted with witnesses, described exactly by C67_set_probability, C67_utilities and C67_int_statements, and proved for all other programs and networks.")
claim("C68", "proved", "C68_sharp C68_any C68_exact C68_wrong C68_cycle_other_exact C68_cycle_default_wrong C68_parts_default_wrong C68_parts_other_exact", "C68_sharp is the equivalence for connected networks, C68_any for all networks; C68_exact also covers tables that are not normalised, and C68_wrong gives the wrong answers.  The last four theorems apply them to two elimination orders of two networks.")
claim("C69", "proved", "C69_names C69_fresh C69_readers C69_separate C69_coherent C69_shared_rename_refuted C69_shared_edge_refuted", "C69_names is the simulation for one network and all hash functions, C69_separate adds other networks that share no node object, C69_coherent transfers C30.  The last two theorems show that sharing a node object breaks it (the statement excludes it).")
claim("C70", "partial", "C70_unrolled C70_prior_feedback_partial C70_single_transition_partial C70_naive_partial C70_soft_feedback_partial C70_soft_single_transition_partial C70_separated_partial C70_soft_separated_partial C70_methods_agree_partial C70_two_transitions_refuted C70_soft_target_refuted", "Proved for networks with exact trees (both networks connected, targets without parents) if the sources of the transitions are independent given the evidence of their slice (always the case with one transition, and for all tables if the evidence d-separates the sources: C70_separated_partial), for prior feedback with any evidence, for soft feedback with normalised tables and no evidence on targets.  C70_methods_agree_partial needs no independence.  False in general: dependent sources are fed back as a product of marginals (C70_two_transitions_refuted), and soft feedback drops evidence on a transition target (C70_soft_target_refuted).")
claim("C71", "partial", "C71_relevant_partial C71_remove_leaf C71_unset_table_refuted", "Proved for acyclic networks with normalised non-negative tables.  False if a column of a table outside the relevant part does not sum to one, e.g. for a new node whose table has not been set: it makes all answers 0 (C71_unset_table_refuted).")
claim("C72", "proved", "C72_independent C72_more_evidence C72_local_markov C72_markov_blanket C72_no_common_ancestor C72_scattered", "Normalised non-negative tables of acyclic networks.  Factor trees where they are exact (C21, C68).")
claim("C73", "proved", "C73_complete C73_iff C73_symm", "C73_iff combines C73_complete with C72.  Every variable of the network must have two outcomes or more; a variable with one outcome blocks all trails through it.")
claim("C74", "proved", "C74_marginalize C74_update C74_product_rule C74_bayes C74_total_probability C74_evidence_order", "Statements about returned tables only (ExactAnswer), no posterior in them.  Factor trees where they are exact (C21, C68).  Total probability needs distinct outcomes of the variable.")
claim("C75", "proved", "C75_scale C75_iff C75_constant C75_replace C75_one_hot C75_negative_refuted", "C75_constant, C75_replace and C75_one_hot give cases of the relation SameUpToScale.  Non-negativity is needed: C75_negative_refuted.  Exact arithmetic; for floats see C63.")
claim("C76", "proved", "C76_same_answers C76_get_potential C76_hard_evidence", "Factor trees where they are exact (C21, C68).  Hard evidence is the same dict for both networks (C76_hard_evidence).")
claim("C77", "proved", "C77_cliques C77_complete_iff C77_tables C77_polytree C77_polytree_memory C77_loop_refuted", "Needs unique concatenations of names, as C22.  The bound by families fails for networks with loops (C77_loop_refuted).")
claim("C78", "proved", "C78_odds C78_factor C78_distance C78_support C78_one_table C78_odds_sharp C78_distance_sharp C78_additive_refuted", "Changes are measured as factors; for differences of entries the claim is refuted (C78_additive_refuted).")
claim("C79", "proved", "C79_affine C79_decisions C79_close C79_regret C79_regret_sharp C79_tables C79_monotone_refuted", "Decisions under the hypotheses of C52 (free decision nodes, normalised tables); affine changes only, for others the claim about decisions is refuted (C79_monotone_refuted).")
claim("C80", "proved", "C80_sensor C80_array C80_exists C80_two_reports C80_hard_only C80_interface", "Answers are those of any exact method on either side (ExactAnswer); C80_interface builds the leaf by four calls of the modelled interface.")
claim("C81", "proved", "C81_forward_legal C81_chain_legal C81_marginals_legal C81_precision_needed C81_first_outcome C81_gibbs_change C81_mh_change C81_forward C81_double C81_law C81_estimate C81_gibbs_trap", "Arithmetic without under- and overflow; counts of samples and table entries are exact.  Single-site chains need an unobserved node (C43).  C81_precision_needed: u N <= 1 cannot be dropped; C81_gibbs_trap: for Gibbs sampling the condition on the states cannot be weakened to the one for exact sampling.")
claim("C82", "proved", "C82_exact C82_expected_utility C82_bounded C82_nonneg C82_local_optimum C82_same_decisions C82_regret C82_double C82_cancellation_refuted C82_decision_refuted", "Arithmetic without under- and overflow.  Optimality of the exact decisions is that of C52 (the other decisions fixed or random), for decision nodes without information.")
claim("C83", "partial", "C83_tree_error_partial C83_prior_error_partial C83_soft_error_partial C83_relative_error_partial", "Arithmetic without under- and overflow.  Missing: disconnected networks and trees without running intersections, whose exact answers are wrong already (C21, C29).")
claim("C84", "proved", "C84_exchange C84_reached C84_count C84_left_out_refuted", "For all networks and elimination orders.  That all cliques of a connected network take part needs the running intersection property (witness).")
claim("C85", "partial", "C85_prior_feedback_error_partial C85_linear C85_exact", "Arithmetic without under- and overflow.  Missing, as in C47: slices that are not connected or whose default tree lacks running intersections.")
claim("C86", "partial", "C86_soft_feedback_error_partial C86_linear C86_exact", "Arithmetic without under- and overflow.  Missing, as in C48: slices that are not connected or whose default tree lacks running intersections.")
claim("C87", "proved", "C87_naive_double C87_bucket_double C87_naive C87_bucket C87_bucket_default C87_unlimited C87_room_refuted", "IEEE doubles are modelled as a rounding function on rational numbers (Arith.double): nearest even, denormalised numbers, arbitrary results above 2^1023; infinities and NaN are not values of the model, but the theorems hold whatever such an operation returns.  C87_room_refuted: without the condition on the numbers the answer can be a table of zeros.")
claim("C88", "partial", "C88_bucket_table C88_no_larger C88_loop C88_query C88_naive C88_perfect C88_polytree_partial C88_married_partial C88_default_order_refuted", "Everything but the last sentence is proved as stated.  The last sentence is false of the code: get_min_degree_order looks at the undirected graph of the network, in which parents of a common child are not linked, so with the default order a table can have 2^(n+1) entries in a network of 2n+3 binary variables for which another order never needs more than 32 (C88_default_order_refuted).  It holds if parents of a common child are always linked (C88_married_partial), and on polytrees, where no bucket outgrows a table of the network and the query (C88_polytree_partial).")
claim("C89", "proved", "C89_program C89_reachable_iff C89_build_and_query C89_cycle_accepted", "Good histories are those of C30.  Node objects are numbered in the order of construction.  Networks are compared up to the order of the dictionaries of parents and children.  add_edge does not look for cycles, so the last sentence records a weakness of the code, not a merit.")
claim("C90", "proved", "C90_law C90_tables C90_share C90_burn_in C90_marginals C90_samples C90_rounded_law C90_slow", "The random numbers of the model are real (C90_rounded_law: finitely many, with rounded arithmetic).  The constants are safe rather than sharp.  For tables with zeros that agree with the evidence see C57: there convergence may fail.")
claim("C91", "proved", "C91_tree_double C91_prior_double C91_tree_range C91_prior_range C91_room_refuted", "For connected networks whose tree has running intersections (others are not exact, C21).  The size of an answer counts towards the limit.  softPosteriors=True is not covered.  Doubles as in C87.  C91_room_refuted: without the condition on the numbers the answer can be a table of zeros.")
claim("C92", "partial", "C92_forget C92_forget_any C92_fade_vanishes C92_start_forgotten_partial C92_rounding_bounded_partial C92_copy_refuted C92_two_transitions_refuted", "For one transition and slices whose default trees are exact (as C47).  Several transitions: refuted (C92_two_transitions_refuted), two first slices can stay apart for ever although the influence of the past is bounded.  For SoftEvidenceExact see C93.  C92_copy_refuted: without a bound on the influence of the past nothing is forgotten.")
claim("C93", "partial", "C93_forget C93_forget_any C93_start_forgotten_partial C93_rounding_bounded_partial C93_copy_refuted C93_two_transitions_refuted", "For one transition and slices whose default trees are exact (as C48), with arrays that lie within the priors of their variables.  Several transitions: refuted (C93_two_transitions_refuted).  C93_copy_refuted: without a bound on the influence of the past nothing is forgotten.")
claim("C94", "partial", "C94_forget C94_forget_any C94_blur C94_blur_vanishes C94_start_forgotten_partial C94_rounding_bounded_partial", "For slices whose default trees are exact (as C47) and transitions none of whose sources is a target.  The factor tends to one under the stated condition on the influences; that some condition is needed is C92_two_transitions_refuted.")
claim("C95", "partial", "C95_forget C95_forget_any C95_start_forgotten_partial C95_rounding_bounded_partial C94_blur C94_blur_vanishes", "For slices whose default trees are exact (as C48), transitions none of whose sources is a target, and arrays that lie within the priors of their variables.  The factor tends to one under the stated condition on the influences (C94_blur_vanishes); that some condition is needed is C93_two_transitions_refuted.")
claim("C96", "proved", "C96_met C96_iff C96_prior C96_observations C96_graph C96_tree C96_observations_tree", "C96_tree and C96_observations_tree are about the code, for networks with exact trees (as C28); the other theorems say what the likelihoods array / prior of C28_soft_evidence do.")
claim("C97", "proved", "C97_estimate C97_forced C97_posterior C97_prior C97_missed C97_iff C97_effect_refuted", "The client program that draws and counts is defined in Verif/Spec/Draw.lean; get_sample and from_samples are the models of the code.")
claim("C98", "proved", "C98_ascent C98_converges C98_worst_refuted C98_global_refuted", "The client program that optimises one decision after the other is defined in Verif/Spec/Ascent.lean; get_optimal_decisions and expected_utility are the models of the code.")
claim("C99", "proved", "C99_rounded C99_exact C99_lower_refuted C99_restless_refuted", "Arithmetic without under- and overflow in C99_rounded; C99_restless_refuted is about IEEE doubles (Arith.double).  The client program is defined in Verif/Spec/RoundedAscent.lean.")
claim("C100", "proved", "C100_greedy C100_bound_attained C100_independent C100_separated C100_certificate C100_global_refuted C100_single_refuted", "The client program is defined in Verif/Spec/Greedy.lean; naive_marginals and get_potential are the models of the code.")
claim("C101", "proved", "C101_exact C101_never_fails", "The client program is defined in Verif/Spec/PosteriorDraw.lean; naive_marginals, get_potential and the roulette wheel of sample_value are the models of the code.")
C.sort(key=lambda c: c["property"])
out = pathlib.Path(__file__).resolve().parent.parent / "MANIFEST.json"
out.write_text(json.dumps({"claims": C}, indent=1, ensure_ascii=False) + "\n")

# lean/Verif/Audit.lean: print the axioms of every theorem claimed above
root = out.parent / "lean" / "Verif"
mods = sorted("Verif.Props." + p.stem for p in (root / "Props").glob("*.lean"))
names = []
for c in C:
    for t in c["theorems"]:
        if t not in names:
            names.append(t)
(root / "Audit.lean").write_text(
    "".join(f"import {m}\n" for m in mods)
    + "\n/-! Generated by `tools/manifest.py`: the axioms of every claimed theorem. -/\n\n"
    + "".join(f"#print axioms {n}\n" for n in names))
