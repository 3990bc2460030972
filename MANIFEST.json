{
 "claims": [
  {
   "property": "C01",
   "status": "proved",
   "theorems": [
    "Primo.C01_mul_pointwise"
   ],
   "note": "All compatible factors, all set iteration orders."
  },
  {
   "property": "C02",
   "status": "proved",
   "theorems": [
    "Primo.C02_mul_comm",
    "Primo.C02_mul_assoc",
    "Primo.C02_mul_trivial"
   ],
   "note": "Equality of tables up to axis order; the unit laws give the identical factor."
  },
  {
   "property": "C03",
   "status": "proved",
   "theorems": [
    "Primo.C03_add_pointwise",
    "Primo.C03_add_comm",
    "Primo.C03_add_assoc"
   ],
   "note": ""
  },
  {
   "property": "C04",
   "status": "proved",
   "theorems": [
    "Primo.C04_marginalize",
    "Primo.C04_marginalize_perm",
    "Primo.C04_marginalize_error"
   ],
   "note": ""
  },
  {
   "property": "C05",
   "status": "proved",
   "theorems": [
    "Primo.C05_distributive"
   ],
   "note": ""
  },
  {
   "property": "C06",
   "status": "partial",
   "theorems": [
    "Primo.C06_div_partial",
    "Primo.C06_mul_div_cancel",
    "Primo.C06_invert_trivial_zero_refuted"
   ],
   "note": "Proved except for a scope-less divisor with potential 0, where the code raises FloatingPointError instead of the documented 1/0=0; this is proved as a refutation."
  },
  {
   "property": "C07",
   "status": "proved",
   "theorems": [
    "Primo.C07_normalize"
   ],
   "note": ""
  },
  {
   "property": "C08",
   "status": "proved",
   "theorems": [
    "Primo.C08_sub_table",
    "Primo.C08_get_potential",
    "Primo.C08_single"
   ],
   "note": ""
  },
  {
   "property": "C09",
   "status": "proved",
   "theorems": [
    "Primo.C09_from_node"
   ],
   "note": ""
  },
  {
   "property": "C10",
   "status": "proved",
   "theorems": [
    "Primo.C10_hard_evidence",
    "Primo.C10_soft_evidence",
    "Primo.C10_hard_eq_one_hot"
   ],
   "note": ""
  },
  {
   "property": "C100",
   "status": "proved",
   "theorems": [
    "Primo.C100_greedy",
    "Primo.C100_bound_attained",
    "Primo.C100_independent",
    "Primo.C100_separated",
    "Primo.C100_certificate",
    "Primo.C100_global_refuted",
    "Primo.C100_single_refuted"
   ],
   "note": "The client program is defined in Verif/Spec/Greedy.lean; naive_marginals and get_potential are the models of the code."
  },
  {
   "property": "C101",
   "status": "proved",
   "theorems": [
    "Primo.C101_exact",
    "Primo.C101_never_fails"
   ],
   "note": "The client program is defined in Verif/Spec/PosteriorDraw.lean; naive_marginals, get_potential and the roulette wheel of sample_value are the models of the code."
  },
  {
   "property": "C11",
   "status": "proved",
   "theorems": [
    "Primo.C11_soft_posterior"
   ],
   "note": ""
  },
  {
   "property": "C12",
   "status": "proved",
   "theorems": [
    "Primo.C12_from_samples"
   ],
   "note": ""
  },
  {
   "property": "C13",
   "status": "proved",
   "theorems": [
    "Primo.C13_naive_exact"
   ],
   "note": "All consistent networks, legal evidence, queries and set iteration orders."
  },
  {
   "property": "C14",
   "status": "proved",
   "theorems": [
    "Primo.C14_bucket_exact",
    "Primo.C14_bucket_exact_default"
   ],
   "note": "Any permutation of the nodes as order, and the default min-degree order (which needs the graph's succ lists to agree with the parent lists)."
  },
  {
   "property": "C15",
   "status": "proved",
   "theorems": [
    "Primo.C15_routes_agree"
   ],
   "note": ""
  },
  {
   "property": "C16",
   "status": "proved",
   "theorems": [
    "Primo.C16_hard_eq_one_hot"
   ],
   "note": "The two calls return identical results, errors included."
  },
  {
   "property": "C17",
   "status": "proved",
   "theorems": [
    "Primo.C17_posterior_distribution"
   ],
   "note": ""
  },
  {
   "property": "C18",
   "status": "proved",
   "theorems": [
    "Primo.C18_joint_sums_to_one",
    "Primo.C18_closed_prior",
    "Primo.C18_root_prior"
   ],
   "note": ""
  },
  {
   "property": "C19",
   "status": "proved",
   "theorems": [
    "Primo.C19_min_degree_order"
   ],
   "note": "Also fixes the tie-break: the first node of minimal degree in network order."
  },
  {
   "property": "C20",
   "status": "proved",
   "theorems": [
    "Primo.C20_random_order",
    "Primo.C20_matches_graph"
   ],
   "note": "First theorem: every history of calls, including those that break other invariants.  Second: after good histories the list is the graph's node list."
  },
  {
   "property": "C21",
   "status": "partial",
   "theorems": [
    "Primo.C21_tree_exact_partial",
    "Primo.C21_chordless_refuted"
   ],
   "note": "Exact for all connected networks whose tree has the running intersection property (in particular if the elimination order, default or explicit, needs no fill-in), all legal evidence, all queries inside a clique, all set orders.  False in general: create_jointree adds no fill-in edges (concrete five-node counterexample proved).  By C68 it is false for all tables together whenever the running intersection property fails, so the hypothesis cannot be weakened."
  },
  {
   "property": "C22",
   "status": "proved",
   "theorems": [
    "Primo.C22_each_table_once",
    "Primo.C22_name_collision_refuted"
   ],
   "note": "All networks and complete orders, chordal or not, provided the joined clique names are unambiguous; the collision of joined names is refuted separately."
  },
  {
   "property": "C23",
   "status": "partial",
   "theorems": [
    "Primo.C23_junction_tree_partial",
    "Primo.C23_chordless_refuted"
   ],
   "note": "Proved for orders that need no fill-in edges; false in general (proved).  For the other orders counting edges decides (C68)."
  },
  {
   "property": "C24",
   "status": "proved",
   "theorems": [
    "Primo.C24_polytree_exact"
   ],
   "note": "All connected polytrees with the default order."
  },
  {
   "property": "C25",
   "status": "proved",
   "theorems": [
    "Primo.C25_calibrated",
    "Primo.C25_created"
   ],
   "note": "All junction trees with non-negative tables; second theorem: created trees, with or without evidence, satisfy the hypotheses."
  },
  {
   "property": "C26",
   "status": "proved",
   "theorems": [
    "Primo.C26_no_accumulation",
    "Primo.C26_evidence_alone"
   ],
   "note": "All histories of calls, successful or failed."
  },
  {
   "property": "C27",
   "status": "proved",
   "theorems": [
    "Primo.C27_query"
   ],
   "note": "All calibrated junction trees."
  },
  {
   "property": "C28",
   "status": "proved",
   "theorems": [
    "Primo.C28_soft_posterior",
    "Primo.C28_soft_evidence",
    "Primo.C28_jeffrey",
    "Primo.C28_two_targets_refuted"
   ],
   "note": "All connected networks whose tree has the running intersection property, after any history of calls.  Also proved: the effect of any number of observations and target arrays, and that other posteriors follow Jeffrey's rule.  Several targets are in general not met (witness)."
  },
  {
   "property": "C29",
   "status": "partial",
   "theorems": [
    "Primo.C29_root_component_partial",
    "Primo.C29_single_clique_partial",
    "Primo.C29_left_out",
    "Primo.C29_evidence_ignored",
    "Primo.C29_disconnected_refuted",
    "Primo.C29_refused_refuted"
   ],
   "note": "Exact in the component of the first clique and in components with one clique; false for other components (proved; by C68_any for every network that has other components).  What the other cliques answer is described exactly: the normalised product of the tables and evidence they are the first to contain, or ValueError."
  },
  {
   "property": "C30",
   "status": "partial",
   "theorems": [
    "Primo.C30_coherent_partial",
    "Primo.C30_usable_consistent",
    "Primo.C30_duplicate_edge_refuted",
    "Primo.C30_stale_parents_refuted",
    "Primo.C30_stale_after_clear_refuted",
    "Primo.C30_utility_parent_refuted",
    "Primo.C30_remove_decision_parent_refuted",
    "Primo.C30_rename_by_object_refuted",
    "Primo.C33_collision_refuted"
   ],
   "note": "Proved for all histories of calls in which no call is one of the seven kinds that the code handles wrongly (predicate Good).  For each excluded kind a concrete history breaking the invariant is proved."
  },
  {
   "property": "C31",
   "status": "partial",
   "theorems": [
    "Primo.C31_valid_history_partial",
    "Primo.C31_change_resets_partial"
   ],
   "note": "Proved for all good histories (see C30); the excluded calls are those refuted under C30."
  },
  {
   "property": "C32",
   "status": "partial",
   "theorems": [
    "Primo.C32_rejections_partial",
    "Primo.C32_atomic_partial",
    "Primo.C30_rename_by_object_refuted",
    "Primo.C30_utility_parent_refuted",
    "Primo.C37_rejected_decision_refuted"
   ],
   "note": "All rejections named in the property are proved; C32_atomic_partial extends this to every raising call after a good history.  Raising calls that do change the state (rename by object, edge from a utility node, set_decision) are refuted."
  },
  {
   "property": "C33",
   "status": "partial",
   "theorems": [
    "Primo.C33_rename_partial",
    "Primo.C33_queries",
    "Primo.C33_collision_refuted"
   ],
   "note": "Unused new names: structure, tables and all query answers are preserved.  A name already in use loses a node (proved)."
  },
  {
   "property": "C34",
   "status": "partial",
   "theorems": [
    "Primo.C34_remove_node_partial",
    "Primo.C34_remove_edge_partial",
    "Primo.C34_decision_edge_refuted",
    "Primo.C30_remove_decision_parent_refuted"
   ],
   "note": "Proved when the affected children are chance nodes; decision and utility children make the calls fail (proved)."
  },
  {
   "property": "C35",
   "status": "proved",
   "theorems": [
    "Primo.C35_set_probability",
    "Primo.C35_read_back"
   ],
   "note": ""
  },
  {
   "property": "C36",
   "status": "proved",
   "theorems": [
    "Primo.C36_get_probability",
    "Primo.C36_fast_path_agrees"
   ],
   "note": ""
  },
  {
   "property": "C37",
   "status": "partial",
   "theorems": [
    "Primo.C37_set_decision_partial",
    "Primo.C37_fully_mixed_partial",
    "Primo.C37_rejected_decision_zeroes",
    "Primo.C37_rejected_decision_refuted"
   ],
   "note": "The rules written by accepted calls are characterised for all tables.  The clause that a rejected decision leaves the rule alone is false: the table is zeroed before ValueError is raised (proved)."
  },
  {
   "property": "C38",
   "status": "partial",
   "theorems": [
    "Primo.C38_one_write_partial",
    "Primo.C38_last_write_partial",
    "Primo.C38_reading_partial",
    "Primo.C38_parentless_refuted"
   ],
   "note": "Proved for every utility node whose table is an array.  A parentless utility node that never got a table holds the Python int 1, and both accessors raise TypeError (proved)."
  },
  {
   "property": "C39",
   "status": "proved",
   "theorems": [
    "Primo.C39_wheel",
    "Primo.C39_all_zero"
   ],
   "note": "Lebesgue measure of the random numbers that select each outcome; random.random() is idealised to a real number of [0,1)."
  },
  {
   "property": "C40",
   "status": "proved",
   "theorems": [
    "Primo.C40_markov_blanket",
    "Primo.C40_constant"
   ],
   "note": "All consistent networks of discrete nodes, all states."
  },
  {
   "property": "C41",
   "status": "proved",
   "theorems": [
    "Primo.C41_gibbs_invariant",
    "Primo.C41_posterior_mass"
   ],
   "note": "Both modes, all legal hard evidence.  Single-site steps need an unobserved node (they raise IndexError otherwise, see C43)."
  },
  {
   "property": "C42",
   "status": "proved",
   "theorems": [
    "Primo.C42_detailed_balance",
    "Primo.C42_mh_invariant"
   ],
   "note": ""
  },
  {
   "property": "C43",
   "status": "partial",
   "theorems": [
    "Primo.C43_chain_legal_partial",
    "Primo.C43_all_observed",
    "Primo.C43_all_observed_refuted"
   ],
   "note": "Proved for all networks, evidence, samplers, burn-in and sample counts except single-site chains with every node observed, which raise IndexError (proved)."
  },
  {
   "property": "C44",
   "status": "proved",
   "theorems": [
    "Primo.C44_forward_evidence",
    "Primo.C44_forward_joint",
    "Primo.C44_forward_legal"
   ],
   "note": "Includes the correctness of the topological sort of networkx < 2.4."
  },
  {
   "property": "C45",
   "status": "partial",
   "theorems": [
    "Primo.C45_marginals_partial",
    "Primo.C45_all_observed_refuted"
   ],
   "note": "Same exception as C43."
  },
  {
   "property": "C46",
   "status": "partial",
   "theorems": [
    "Primo.C46_prior_time",
    "Primo.C46_soft_time",
    "Primo.C46_prior_pending",
    "Primo.C46_soft_pending",
    "Primo.C46_prior_unroll_none",
    "Primo.C46_soft_unroll_none",
    "Primo.C46_prior_unroll_pending_partial",
    "Primo.C46_soft_unroll_pending_partial",
    "Primo.C46_prior_no_leak",
    "Primo.C46_soft_no_leak",
    "Primo.C46_prior_fresh",
    "Primo.C46_soft_fresh",
    "Primo.C46_rejected_evidence_used"
   ],
   "note": "Time, pending flag and absence of leaks: all histories, including raising calls.  unroll() uses the evidence of the preceding set_evidence; if a set_evidence raised in between, it uses the part of the rejected evidence entered before the exception (witness)."
  },
  {
   "property": "C47",
   "status": "partial",
   "theorems": [
    "Primo.C47_prior_feedback_partial",
    "Primo.C47_slices_unique",
    "Primo.C47_chordless_refuted"
   ],
   "note": "All histories of allowed calls, for slices on which the factor tree is exact (see C21); false otherwise (witness).  Between unroll and set_evidence the queries refer to the slice just left."
  },
  {
   "property": "C48",
   "status": "partial",
   "theorems": [
    "Primo.C48_single_transition_partial",
    "Primo.C48_several_transitions_partial",
    "Primo.C48_soft_feedback_partial",
    "Primo.C48_chordless_refuted",
    "Primo.C48_two_transitions_refuted"
   ],
   "note": "All histories of calls whose evidence can be met, for slices on which the factor tree is exact (see C21); false otherwise (witness).  The general theorem covers any number of transitions; if the targets are independent in the 2-TBN all of them get the marginals of their sources (C48_several_transitions_partial), otherwise not (C48_two_transitions_refuted, C96)."
  },
  {
   "property": "C49",
   "status": "partial",
   "theorems": [
    "Primo.C49_add_transition_partial",
    "Primo.C49_key_error_refuted",
    "Primo.C49_add_transitions",
    "Primo.C49_create"
   ],
   "note": "Everything but the class of one exception: KeyError instead of StructureError when node_p is missing from the 2-TBN only (malformed format string, witness)."
  },
  {
   "property": "C50",
   "status": "proved",
   "theorems": [
    "Primo.C50_generalized_VE",
    "Primo.C50_all_eliminated",
    "Primo.C50_order_independent"
   ],
   "note": "Non-negative probability parts, all elimination orders, all iteration orders of the factor sets; if the probability total is 0 the code raises FloatingPointError (part of the theorem).  Also for a part of the variables."
  },
  {
   "property": "C51",
   "status": "partial",
   "theorems": [
    "Primo.C51_expected_utility",
    "Primo.C51_no_decisions",
    "Primo.C51_expected_utility_partial",
    "Primo.C51_unnormalised_refuted",
    "Primo.C51_illegal_decisions"
   ],
   "note": "The code returns the weighted sum divided by the total weight, for all consistent networks with non-negative tables, and fails exactly when the total weight is 0; this is the claimed sum for normalised tables, and is not for others (witness)."
  },
  {
   "property": "C52",
   "status": "partial",
   "theorems": [
    "Primo.C52_local_optimum",
    "Primo.C52_average",
    "Primo.C52_dominant_partial",
    "Primo.C52_single_partial",
    "Primo.C52_separable_partial",
    "Primo.C52_information_error",
    "Primo.C52_refuted",
    "Primo.C52_fixed_refuted",
    "Primo.C98_worst_refuted"
   ],
   "note": "Optimal for a single decision, for dominant decisions and for separable expected utilities; false for interacting decisions (witness).  What the code computes in general (maximiser of the average over the other decisions) is proved.  Decisions with information raise ValueError (proved)."
  },
  {
   "property": "C53",
   "status": "partial",
   "theorems": [
    "Primo.C53_round_trip_partial",
    "Primo.C53_exact_partial",
    "Primo.C53_posterior_partial",
    "Primo.C53_unnamed_refuted",
    "Primo.C53_empty_property_refuted",
    "Primo.C53_no_outcomes_refuted",
    "Primo.C53_utility_refuted",
    "Primo.C53_control_character_refuted"
   ],
   "note": "All coherent networks of chance nodes whose names and outcomes are non-empty XML text, all property settings; exact unless the network name or a property is the empty string, which comes back as None (proved; the default network name is the empty string).  Utility nodes, nodes without outcomes and control characters make write or parse raise (proved)."
  },
  {
   "property": "C54",
   "status": "proved",
   "theorems": [
    "Primo.C54_write",
    "Primo.C54_read"
   ],
   "note": "All arities and numbers of parents.  Reading: every accepted document with one definition per variable.  Numbers are written with an arbitrary notation that float() reads back (FloatText)."
  },
  {
   "property": "C55",
   "status": "partial",
   "theorems": [
    "Primo.C55_round_trip_partial",
    "Primo.C55_no_slash_refuted",
    "Primo.C55_other_networks_refuted",
    "Primo.C55_folder_in_name_refuted",
    "Primo.C55_node_objects_refuted"
   ],
   "note": "Proved for paths that are empty or end with a slash, names without slash, transitions given by name, any file system.  False for every other path (proved for all: OSError, or silently the networks of another specification), for names with a folder in them, and for transitions given by node objects."
  },
  {
   "property": "C56",
   "status": "proved",
   "theorems": [
    "Primo.C56_api_to_posterior"
   ],
   "note": "Composition of C30 with C13/C14 for all good histories that end in a network of chance/decision nodes with outcomes and no self loop."
  },
  {
   "property": "C57",
   "status": "partial",
   "theorems": [
    "Primo.C57_law_connected_partial",
    "Primo.C57_law_disconnected",
    "Primo.C57_law_iff",
    "Primo.C57_mh_law",
    "Primo.C57_mh_law_iff",
    "Primo.C57_mh_consistent",
    "Primo.C57_consistent_connected_partial",
    "Primo.C57_disconnected",
    "Primo.C57_mh_consistent_iff",
    "Primo.C57_consistent_iff_partial",
    "Primo.C57_no_evidence_iff",
    "Primo.C57_gibbs_law_partial",
    "Primo.C57_gibbs_consistent",
    "Primo.C57_gibbs_consistent_iff",
    "Primo.C57_gibbs_stuck",
    "Primo.C57_gibbs_refuted",
    "Primo.C57_positive_connected",
    "Primo.C57_law_partial",
    "Primo.C57_law_tendsto_partial",
    "Primo.C57_consistent_partial",
    "Primo.C57_consistent_tendsto_partial",
    "Primo.C57_positive_tables",
    "Primo.C57_law_refuted",
    "Primo.C57_consistent_refuted"
   ],
   "note": "The unrestricted statement is false, and settled by equivalences.  Metropolis-Hastings: law and estimates converge if and only if the possible instantiations are connected by changes of single variables (C57_mh_law_iff, C57_mh_consistent_iff), with exponential rate for the law and error probability at most c/(N eps^2), c independent of burn-in, N and eps.  The same for both samplers from possible initial states (C57_law_iff), without evidence (C57_no_evidence_iff), and whenever forward sampling cannot contradict the evidence (C57_consistent_iff_partial); positive tables are a special case.  False in general: a node that copies its parent (C57_law_refuted, C57_consistent_refuted), and for Gibbs sampling also when the possible states are connected, because it can stay in an impossible initial state forever (C57_gibbs_refuted).  C57_gibbs_consistent_iff is the equivalence for Gibbs sampling: the possible states are connected, and from wherever the chain can get from an initial state it can still get to a possible one.  Single-site chains need an unobserved node (see C43)."
  },
  {
   "property": "C58",
   "status": "proved",
   "theorems": [
    "Primo.C58_burn_in",
    "Primo.C58_restart",
    "Primo.C58_one_step",
    "Primo.C58_law"
   ],
   "note": "Equality of the random programs, so for every outcome of the random numbers, errors included."
  },
  {
   "property": "C59",
   "status": "partial",
   "theorems": [
    "Primo.C59_no_sharing_partial",
    "Primo.C59_exposed_write",
    "Primo.C59_exposed_normalize",
    "Primo.C59_get_potential_refuted"
   ],
   "note": "Proved for all programs that do not call get_potential() without variables: contents and exceptions agree with a semantics in which nothing is shared.  get_potential() returns the table itself; proved what a later assignment or normalize does in that case, and that the unrestricted statement is false."
  },
  {
   "property": "C60",
   "status": "partial",
   "theorems": [
    "Primo.C60_operands_partial",
    "Primo.C60_other_broken",
    "Primo.C60_other_returned",
    "Primo.C60_other_transposed"
   ],
   "note": "Proved for the default useOther=False.  With useOther=True the operand 'other' is modified: it gets variables without labels (get_potential raises KeyError), is itself returned and overwritten if self has no variables, or has its table silently transposed."
  },
  {
   "property": "C61",
   "status": "partial",
   "theorems": [
    "Primo.C61_reuse_partial",
    "Primo.C61_same_names",
    "Primo.C61_order_after",
    "Primo.C61_unchanged_iff",
    "Primo.C61_order_refuted"
   ],
   "note": "Proved: every legal query of any sequence of calls on one list object is answered exactly.  The list itself is reordered by the call (the query variables are moved to its end); proved how, and that it is unchanged exactly if it already ends with them."
  },
  {
   "property": "C62",
   "status": "partial",
   "theorems": [
    "Primo.C62_bucket_refuses_partial",
    "Primo.C62_bucket_refuses_default_partial",
    "Primo.C62_naive_refuses_partial",
    "Primo.C62_naive_ignores",
    "Primo.C62_naive_unknown_refuted",
    "Primo.C62_tree_refuses",
    "Primo.C62_naive_repeated",
    "Primo.C62_repeated",
    "Primo.C62_scope_iff",
    "Primo.C62_repeated_refuted"
   ],
   "note": "Proved for bucket_marginals and set_evidence, and for outcomes and array lengths in naive_marginals.  False: naive_marginals silently drops unknown names from query and evidence (proved as an equation for all networks), and a repeated query variable makes bucket_marginals return more variables than asked for, or powers of the distribution.  Repetitions do not matter to naive_marginals."
  },
  {
   "property": "C63",
   "status": "proved",
   "theorems": [
    "Primo.C63_exact",
    "Primo.C63_naive",
    "Primo.C63_bucket",
    "Primo.C63_bucket_default",
    "Primo.C63_error",
    "Primo.C63_sum",
    "Primo.C63_same_outcome",
    "Primo.C63_tree_history",
    "Primo.C63_tree",
    "Primo.C63_negative_refuted",
    "Primo.C63_underflow_refuted"
   ],
   "note": "The arithmetic is a parameter with bounded relative error.  Both conditions are needed: C63_negative_refuted (a negative table entry, which set_cpd accepts) and C63_underflow_refuted (for any smallest positive number there is possible evidence for which the answer is a table of zeros)."
  },
  {
   "property": "C64",
   "status": "partial",
   "theorems": [
    "Primo.C64_consistent_partial",
    "Primo.C64_expected_utility_partial",
    "Primo.C64_live_partial",
    "Primo.C64_edge_resets",
    "Primo.C64_utility_parent",
    "Primo.C64_same_name_refuted",
    "Primo.C64_repeated_edge_refuted",
    "Primo.C64_set_values_refuted",
    "Primo.C64_cycle_refuted"
   ],
   "note": "Proved for histories without the calls listed in DGood.  DecisionNetwork checks nothing: a second node of the same name, a repeated edge, an edge from a utility node and set_values of a parent are accepted and break the network (witnesses, one with a silently wrong expected utility); cycles are accepted too."
  },
  {
   "property": "C65",
   "status": "partial",
   "theorems": [
    "Primo.C65_disciplined_partial",
    "Primo.C65_for_each",
    "Primo.C65_for_each_total",
    "Primo.C65_copies",
    "Primo.C65_list",
    "Primo.C65_list_point_mass",
    "Primo.C65_list_refuted",
    "Primo.C65_write_back",
    "Primo.C65_write_back_refuted",
    "Primo.C65_lazy",
    "Primo.C65_after_end",
    "Primo.C65_no_evidence",
    "Primo.C65_marginals_law",
    "Primo.C65_marginals_all"
   ],
   "note": "Proved for programs that read a state before asking for the next one and write only into their own dicts, which covers MCMC.marginals.  False for others: all states are the same dict object, so list(chain) is a list of equal states and writing into a state changes the evidence (witnesses).  The network is not changed while generators run."
  },
  {
   "property": "C66",
   "status": "proved",
   "theorems": [
    "Primo.C66_programs_agree",
    "Primo.C66_call",
    "Primo.C66_trees_safe",
    "Primo.C66_kept",
    "Primo.C66_same_answer",
    "Primo.C66_posterior",
    "Primo.C66_tree_kept",
    "Primo.C66_tree_exact"
   ],
   "note": "All programs, with no restriction on get_potential(): which variables share a table is part of the value semantics.  C66_tree_exact is about trees of connected networks with the running intersection property, like C21; the other theorems hold for all networks."
  },
  {
   "property": "C67",
   "status": "partial",
   "theorems": [
    "Primo.C67_node_calls_partial",
    "Primo.C67_set_probability",
    "Primo.C67_utilities",
    "Primo.C67_assignment_refuted",
    "Primo.C67_elimination",
    "Primo.C67_trees",
    "Primo.C67_programs_partial",
    "Primo.C67_float_programs",
    "Primo.C67_queries",
    "Primo.C67_int_statements",
    "Primo.C67_counts",
    "Primo.C67_programs_refuted",
    "Primo.C67_decisions_partial",
    "Primo.C67_expected_utility_partial",
    "Primo.C67_utility_tables_refuted"
   ],
   "note": "Proved in full for exact inference (C67_elimination, C67_trees) and for programs that only ask queries, use trees, multiply, divide and marginalise (C67_queries).  False for assignments to tables of integers, normalize of such tables, and sums of tables of truth values: refuted with witnesses, described exactly by C67_set_probability, C67_utilities and C67_int_statements, and proved for all other programs and networks."
  },
  {
   "property": "C68",
   "status": "proved",
   "theorems": [
    "Primo.C68_sharp",
    "Primo.C68_any",
    "Primo.C68_exact",
    "Primo.C68_wrong",
    "Primo.C68_cycle_other_exact",
    "Primo.C68_cycle_default_wrong",
    "Primo.C68_parts_default_wrong",
    "Primo.C68_parts_other_exact"
   ],
   "note": "C68_sharp is the equivalence for connected networks, C68_any for all networks; C68_exact also covers tables that are not normalised, and C68_wrong gives the wrong answers.  The last four theorems apply them to two elimination orders of two networks."
  },
  {
   "property": "C69",
   "status": "proved",
   "theorems": [
    "Primo.C69_names",
    "Primo.C69_fresh",
    "Primo.C69_readers",
    "Primo.C69_separate",
    "Primo.C69_coherent",
    "Primo.C69_shared_rename_refuted",
    "Primo.C69_shared_edge_refuted"
   ],
   "note": "C69_names is the simulation for one network and all hash functions, C69_separate adds other networks that share no node object, C69_coherent transfers C30.  The last two theorems show that sharing a node object breaks it (the statement excludes it)."
  },
  {
   "property": "C70",
   "status": "partial",
   "theorems": [
    "Primo.C70_unrolled",
    "Primo.C70_prior_feedback_partial",
    "Primo.C70_single_transition_partial",
    "Primo.C70_naive_partial",
    "Primo.C70_soft_feedback_partial",
    "Primo.C70_soft_single_transition_partial",
    "Primo.C70_separated_partial",
    "Primo.C70_soft_separated_partial",
    "Primo.C70_methods_agree_partial",
    "Primo.C70_two_transitions_refuted",
    "Primo.C70_soft_target_refuted"
   ],
   "note": "Proved for networks with exact trees (both networks connected, targets without parents) if the sources of the transitions are independent given the evidence of their slice (always the case with one transition, and for all tables if the evidence d-separates the sources: C70_separated_partial), for prior feedback with any evidence, for soft feedback with normalised tables and no evidence on targets.  C70_methods_agree_partial needs no independence.  False in general: dependent sources are fed back as a product of marginals (C70_two_transitions_refuted), and soft feedback drops evidence on a transition target (C70_soft_target_refuted)."
  },
  {
   "property": "C71",
   "status": "partial",
   "theorems": [
    "Primo.C71_relevant_partial",
    "Primo.C71_remove_leaf",
    "Primo.C71_unset_table_refuted"
   ],
   "note": "Proved for acyclic networks with normalised non-negative tables.  False if a column of a table outside the relevant part does not sum to one, e.g. for a new node whose table has not been set: it makes all answers 0 (C71_unset_table_refuted)."
  },
  {
   "property": "C72",
   "status": "proved",
   "theorems": [
    "Primo.C72_independent",
    "Primo.C72_more_evidence",
    "Primo.C72_local_markov",
    "Primo.C72_markov_blanket",
    "Primo.C72_no_common_ancestor",
    "Primo.C72_scattered"
   ],
   "note": "Normalised non-negative tables of acyclic networks.  Factor trees where they are exact (C21, C68)."
  },
  {
   "property": "C73",
   "status": "proved",
   "theorems": [
    "Primo.C73_complete",
    "Primo.C73_iff",
    "Primo.C73_symm"
   ],
   "note": "C73_iff combines C73_complete with C72.  Every variable of the network must have two outcomes or more; a variable with one outcome blocks all trails through it."
  },
  {
   "property": "C74",
   "status": "proved",
   "theorems": [
    "Primo.C74_marginalize",
    "Primo.C74_update",
    "Primo.C74_product_rule",
    "Primo.C74_bayes",
    "Primo.C74_total_probability",
    "Primo.C74_evidence_order"
   ],
   "note": "Statements about returned tables only (ExactAnswer), no posterior in them.  Factor trees where they are exact (C21, C68).  Total probability needs distinct outcomes of the variable."
  },
  {
   "property": "C75",
   "status": "proved",
   "theorems": [
    "Primo.C75_scale",
    "Primo.C75_iff",
    "Primo.C75_constant",
    "Primo.C75_replace",
    "Primo.C75_one_hot",
    "Primo.C75_negative_refuted"
   ],
   "note": "C75_constant, C75_replace and C75_one_hot give cases of the relation SameUpToScale.  Non-negativity is needed: C75_negative_refuted.  Exact arithmetic; for floats see C63."
  },
  {
   "property": "C76",
   "status": "proved",
   "theorems": [
    "Primo.C76_same_answers",
    "Primo.C76_get_potential",
    "Primo.C76_hard_evidence"
   ],
   "note": "Factor trees where they are exact (C21, C68).  Hard evidence is the same dict for both networks (C76_hard_evidence)."
  },
  {
   "property": "C77",
   "status": "proved",
   "theorems": [
    "Primo.C77_cliques",
    "Primo.C77_complete_iff",
    "Primo.C77_tables",
    "Primo.C77_polytree",
    "Primo.C77_polytree_memory",
    "Primo.C77_loop_refuted"
   ],
   "note": "Needs unique concatenations of names, as C22.  The bound by families fails for networks with loops (C77_loop_refuted)."
  },
  {
   "property": "C78",
   "status": "proved",
   "theorems": [
    "Primo.C78_odds",
    "Primo.C78_factor",
    "Primo.C78_distance",
    "Primo.C78_support",
    "Primo.C78_one_table",
    "Primo.C78_odds_sharp",
    "Primo.C78_distance_sharp",
    "Primo.C78_additive_refuted"
   ],
   "note": "Changes are measured as factors; for differences of entries the claim is refuted (C78_additive_refuted)."
  },
  {
   "property": "C79",
   "status": "proved",
   "theorems": [
    "Primo.C79_affine",
    "Primo.C79_decisions",
    "Primo.C79_close",
    "Primo.C79_regret",
    "Primo.C79_regret_sharp",
    "Primo.C79_tables",
    "Primo.C79_monotone_refuted"
   ],
   "note": "Decisions under the hypotheses of C52 (free decision nodes, normalised tables); affine changes only, for others the claim about decisions is refuted (C79_monotone_refuted)."
  },
  {
   "property": "C80",
   "status": "proved",
   "theorems": [
    "Primo.C80_sensor",
    "Primo.C80_array",
    "Primo.C80_exists",
    "Primo.C80_two_reports",
    "Primo.C80_hard_only",
    "Primo.C80_interface"
   ],
   "note": "Answers are those of any exact method on either side (ExactAnswer); C80_interface builds the leaf by four calls of the modelled interface."
  },
  {
   "property": "C81",
   "status": "proved",
   "theorems": [
    "Primo.C81_forward_legal",
    "Primo.C81_chain_legal",
    "Primo.C81_marginals_legal",
    "Primo.C81_precision_needed",
    "Primo.C81_first_outcome",
    "Primo.C81_gibbs_change",
    "Primo.C81_mh_change",
    "Primo.C81_forward",
    "Primo.C81_double",
    "Primo.C81_law",
    "Primo.C81_estimate",
    "Primo.C81_gibbs_trap"
   ],
   "note": "Arithmetic without under- and overflow; counts of samples and table entries are exact.  Single-site chains need an unobserved node (C43).  C81_precision_needed: u N <= 1 cannot be dropped; C81_gibbs_trap: for Gibbs sampling the condition on the states cannot be weakened to the one for exact sampling."
  },
  {
   "property": "C82",
   "status": "proved",
   "theorems": [
    "Primo.C82_exact",
    "Primo.C82_expected_utility",
    "Primo.C82_bounded",
    "Primo.C82_nonneg",
    "Primo.C82_local_optimum",
    "Primo.C82_same_decisions",
    "Primo.C82_regret",
    "Primo.C82_double",
    "Primo.C82_cancellation_refuted",
    "Primo.C82_decision_refuted"
   ],
   "note": "Arithmetic without under- and overflow.  Optimality of the exact decisions is that of C52 (the other decisions fixed or random), for decision nodes without information."
  },
  {
   "property": "C83",
   "status": "partial",
   "theorems": [
    "Primo.C83_tree_error_partial",
    "Primo.C83_prior_error_partial",
    "Primo.C83_soft_error_partial",
    "Primo.C83_relative_error_partial"
   ],
   "note": "Arithmetic without under- and overflow.  Missing: disconnected networks and trees without running intersections, whose exact answers are wrong already (C21, C29)."
  },
  {
   "property": "C84",
   "status": "proved",
   "theorems": [
    "Primo.C84_exchange",
    "Primo.C84_reached",
    "Primo.C84_count",
    "Primo.C84_left_out_refuted"
   ],
   "note": "For all networks and elimination orders.  That all cliques of a connected network take part needs the running intersection property (witness)."
  },
  {
   "property": "C85",
   "status": "partial",
   "theorems": [
    "Primo.C85_prior_feedback_error_partial",
    "Primo.C85_linear",
    "Primo.C85_exact"
   ],
   "note": "Arithmetic without under- and overflow.  Missing, as in C47: slices that are not connected or whose default tree lacks running intersections."
  },
  {
   "property": "C86",
   "status": "partial",
   "theorems": [
    "Primo.C86_soft_feedback_error_partial",
    "Primo.C86_linear",
    "Primo.C86_exact"
   ],
   "note": "Arithmetic without under- and overflow.  Missing, as in C48: slices that are not connected or whose default tree lacks running intersections."
  },
  {
   "property": "C87",
   "status": "proved",
   "theorems": [
    "Primo.C87_naive_double",
    "Primo.C87_bucket_double",
    "Primo.C87_naive",
    "Primo.C87_bucket",
    "Primo.C87_bucket_default",
    "Primo.C87_unlimited",
    "Primo.C87_room_refuted"
   ],
   "note": "IEEE doubles are modelled as a rounding function on rational numbers (Arith.double): nearest even, denormalised numbers, arbitrary results above 2^1023; infinities and NaN are not values of the model, but the theorems hold whatever such an operation returns.  C87_room_refuted: without the condition on the numbers the answer can be a table of zeros."
  },
  {
   "property": "C88",
   "status": "partial",
   "theorems": [
    "Primo.C88_bucket_table",
    "Primo.C88_no_larger",
    "Primo.C88_loop",
    "Primo.C88_query",
    "Primo.C88_naive",
    "Primo.C88_perfect",
    "Primo.C88_polytree_partial",
    "Primo.C88_married_partial",
    "Primo.C88_default_order_refuted"
   ],
   "note": "Everything but the last sentence is proved as stated.  The last sentence is false of the code: get_min_degree_order looks at the undirected graph of the network, in which parents of a common child are not linked, so with the default order a table can have 2^(n+1) entries in a network of 2n+3 binary variables for which another order never needs more than 32 (C88_default_order_refuted).  It holds if parents of a common child are always linked (C88_married_partial), and on polytrees, where no bucket outgrows a table of the network and the query (C88_polytree_partial)."
  },
  {
   "property": "C89",
   "status": "proved",
   "theorems": [
    "Primo.C89_program",
    "Primo.C89_reachable_iff",
    "Primo.C89_build_and_query",
    "Primo.C89_cycle_accepted"
   ],
   "note": "Good histories are those of C30.  Node objects are numbered in the order of construction.  Networks are compared up to the order of the dictionaries of parents and children.  add_edge does not look for cycles, so the last sentence records a weakness of the code, not a merit."
  },
  {
   "property": "C90",
   "status": "proved",
   "theorems": [
    "Primo.C90_law",
    "Primo.C90_tables",
    "Primo.C90_share",
    "Primo.C90_burn_in",
    "Primo.C90_marginals",
    "Primo.C90_samples",
    "Primo.C90_rounded_law",
    "Primo.C90_slow"
   ],
   "note": "The random numbers of the model are real (C90_rounded_law: finitely many, with rounded arithmetic).  The constants are safe rather than sharp.  For tables with zeros that agree with the evidence see C57: there convergence may fail."
  },
  {
   "property": "C91",
   "status": "proved",
   "theorems": [
    "Primo.C91_tree_double",
    "Primo.C91_prior_double",
    "Primo.C91_tree_range",
    "Primo.C91_prior_range",
    "Primo.C91_room_refuted"
   ],
   "note": "For connected networks whose tree has running intersections (others are not exact, C21).  The size of an answer counts towards the limit.  softPosteriors=True is not covered.  Doubles as in C87.  C91_room_refuted: without the condition on the numbers the answer can be a table of zeros."
  },
  {
   "property": "C92",
   "status": "partial",
   "theorems": [
    "Primo.C92_forget",
    "Primo.C92_forget_any",
    "Primo.C92_fade_vanishes",
    "Primo.C92_start_forgotten_partial",
    "Primo.C92_rounding_bounded_partial",
    "Primo.C92_copy_refuted",
    "Primo.C92_two_transitions_refuted"
   ],
   "note": "For one transition and slices whose default trees are exact (as C47).  Several transitions: refuted (C92_two_transitions_refuted), two first slices can stay apart for ever although the influence of the past is bounded.  For SoftEvidenceExact see C93.  C92_copy_refuted: without a bound on the influence of the past nothing is forgotten."
  },
  {
   "property": "C93",
   "status": "partial",
   "theorems": [
    "Primo.C93_forget",
    "Primo.C93_forget_any",
    "Primo.C93_start_forgotten_partial",
    "Primo.C93_rounding_bounded_partial",
    "Primo.C93_copy_refuted",
    "Primo.C93_two_transitions_refuted"
   ],
   "note": "For one transition and slices whose default trees are exact (as C48), with arrays that lie within the priors of their variables.  Several transitions: refuted (C93_two_transitions_refuted).  C93_copy_refuted: without a bound on the influence of the past nothing is forgotten."
  },
  {
   "property": "C94",
   "status": "partial",
   "theorems": [
    "Primo.C94_forget",
    "Primo.C94_forget_any",
    "Primo.C94_blur",
    "Primo.C94_blur_vanishes",
    "Primo.C94_start_forgotten_partial",
    "Primo.C94_rounding_bounded_partial"
   ],
   "note": "For slices whose default trees are exact (as C47) and transitions none of whose sources is a target.  The factor tends to one under the stated condition on the influences; that some condition is needed is C92_two_transitions_refuted."
  },
  {
   "property": "C95",
   "status": "partial",
   "theorems": [
    "Primo.C95_forget",
    "Primo.C95_forget_any",
    "Primo.C95_start_forgotten_partial",
    "Primo.C95_rounding_bounded_partial",
    "Primo.C94_blur",
    "Primo.C94_blur_vanishes"
   ],
   "note": "For slices whose default trees are exact (as C48), transitions none of whose sources is a target, and arrays that lie within the priors of their variables.  The factor tends to one under the stated condition on the influences (C94_blur_vanishes); that some condition is needed is C93_two_transitions_refuted."
  },
  {
   "property": "C96",
   "status": "proved",
   "theorems": [
    "Primo.C96_met",
    "Primo.C96_iff",
    "Primo.C96_prior",
    "Primo.C96_observations",
    "Primo.C96_graph",
    "Primo.C96_tree",
    "Primo.C96_observations_tree"
   ],
   "note": "C96_tree and C96_observations_tree are about the code, for networks with exact trees (as C28); the other theorems say what the likelihoods array / prior of C28_soft_evidence do."
  },
  {
   "property": "C97",
   "status": "proved",
   "theorems": [
    "Primo.C97_estimate",
    "Primo.C97_forced",
    "Primo.C97_posterior",
    "Primo.C97_prior",
    "Primo.C97_missed",
    "Primo.C97_iff",
    "Primo.C97_effect_refuted"
   ],
   "note": "The client program that draws and counts is defined in Verif/Spec/Draw.lean; get_sample and from_samples are the models of the code."
  },
  {
   "property": "C98",
   "status": "proved",
   "theorems": [
    "Primo.C98_ascent",
    "Primo.C98_converges",
    "Primo.C98_worst_refuted",
    "Primo.C98_global_refuted"
   ],
   "note": "The client program that optimises one decision after the other is defined in Verif/Spec/Ascent.lean; get_optimal_decisions and expected_utility are the models of the code."
  },
  {
   "property": "C99",
   "status": "proved",
   "theorems": [
    "Primo.C99_rounded",
    "Primo.C99_exact",
    "Primo.C99_lower_refuted",
    "Primo.C99_restless_refuted"
   ],
   "note": "Arithmetic without under- and overflow in C99_rounded; C99_restless_refuted is about IEEE doubles (Arith.double).  The client program is defined in Verif/Spec/RoundedAscent.lean."
  }
 ]
}
