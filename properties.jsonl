{"id": "C01", "title": "Factor product is the pointwise product", "statement": "f * g never fails on well-formed factors that agree on the number of outcomes of shared variables; its scope is the union of the two scopes, f's variables first in f's order, and its entry at every joint instantiation is f's entry times g's entry, whatever the axis orders of f and g and whatever order Python iterates the set of extra variables in.", "quantifier": "all pairs of compatible factors of any arity and any axis order, all set-iteration orders (hash seeds), all joint instantiations", "why_tests_cant": "Axis permutation, broadcasting and set-iteration order give unboundedly many combinations; a test sees one hash seed and a few shapes.", "anchors": ["primo2/inference/factor.py:Factor.__mul__"]}
{"id": "C02", "title": "Factor product is commutative, associative and has the trivial factor as unit, up to axis order", "statement": "f*g and g*f assign the same potential to every joint instantiation; so do (f*g)*h and f*(g*h); multiplying by Factor.get_trivial() changes nothing.", "quantifier": "all triples of compatible factors, all instantiations, all set-iteration orders", "why_tests_cant": "An algebraic law over all factors; the repository's own test has it as a TODO.", "anchors": ["primo2/inference/factor.py:Factor.__mul__", "primo2/inference/factor.py:Factor.get_trivial"]}
{"id": "C03", "title": "Factor sum is the pointwise sum", "statement": "f + g on compatible factors succeeds, has the union scope, and its entry at every joint instantiation is the sum of the operands' entries; it is commutative and associative up to axis order.", "quantifier": "all pairs of compatible factors (including trivial ones), all set-iteration orders, all instantiations", "why_tests_cant": "Same combinatorics as the product.", "anchors": ["primo2/inference/factor.py:Factor.__add__"]}
{"id": "C04", "title": "marginalize sums out exactly the given variables", "statement": "f.marginalize(vs) for distinct vs in f's scope succeeds; the result's scope is f's scope without vs in the same order, and its entry at every instantiation is the sum of f over all instantiations of vs; the order of vs is irrelevant; naming a variable outside the scope, or the same one twice, raises ValueError.", "quantifier": "all factors, all lists of variables, all instantiations", "why_tests_cant": "Axis indices shift after every summation; correctness for all arities and orders needs induction.", "anchors": ["primo2/inference/factor.py:Factor.marginalize"]}
{"id": "C05", "title": "Variables absent from one operand can be summed inside a product", "statement": "If v occurs in g and not in f then (f*g).marginalize(v) and f*(g.marginalize(v)) agree at every instantiation (the law that makes variable elimination sound).", "quantifier": "all compatible f, g, all v, all instantiations", "why_tests_cant": "A distributive law over all factors.", "anchors": ["primo2/inference/factor.py:Factor.__mul__", "primo2/inference/factor.py:Factor.marginalize"]}
{"id": "C06", "title": "Division is the entrywise quotient with 1/0 = 0, and is refused exactly when the divisor mentions a foreign variable", "statement": "f / g raises ValueError iff g's scope is not a subset of f's. Otherwise each entry is f's entry divided by g's entry, and 0 where g's entry is 0, so (f*g)/g = f wherever g is non-zero. The documentation of invert promises 1/0 = 0 for every factor.", "quantifier": "all compatible factors, including trivial (scope-less) ones, and all instantiations", "why_tests_cant": "Zero patterns and scopes are unbounded; the trivial-divisor-zero case is never tested.", "anchors": ["primo2/inference/factor.py:Factor.__truediv__", "primo2/inference/factor.py:Factor.invert"]}
{"id": "C07", "title": "normalize makes a table with positive total sum to one and otherwise leaves it alone", "statement": "After normalize() on a factor whose entries have positive total, entries sum to 1 and all ratios are unchanged; if the total is not positive nothing changes; normalizing twice is the same as once.", "quantifier": "all factors of any shape", "why_tests_cant": "Holds for all real tables.", "anchors": ["primo2/inference/factor.py:Factor.normalize"]}
{"id": "C08", "title": "get_potential returns exactly the requested sub-table", "statement": "get_potential({v: [values]}) raises ValueError iff some requested value of a scope variable is not an outcome; otherwise entry (i1,...,ik) of the (unsqueezed) answer is the potential of the instantiation picking the i-th requested value for each requested variable and every outcome, in order, for the others; variables outside the scope are ignored.", "quantifier": "all factors, all query dictionaries", "why_tests_cant": "Query dictionaries and arities are unbounded.", "anchors": ["primo2/inference/factor.py:Factor.get_potential"]}
{"id": "C09", "title": "Factor.from_node reproduces the node's table", "statement": "For a node with consistent table, the factor made from it is well-formed, has scope [node]+parents, and its potential at every instantiation is the node's probability of its value given its parents' values as returned by the single-probability accessor.", "quantifier": "all consistent nodes with any number of parents, all instantiations", "why_tests_cant": "Arity is unbounded.", "anchors": ["primo2/inference/factor.py:Factor.from_node", "primo2/nodes.py:DiscreteNode._get_single_probability"]}
{"id": "C10", "title": "Evidence factors", "statement": "as_evidence with a string is the indicator of that outcome (ValueError iff it is not an outcome); with an array it is that array as likelihood (ValueError iff its length differs from the number of outcomes); hard evidence and the corresponding one-hot array give the same factor.", "quantifier": "all variables, outcome lists and evidence", "why_tests_cant": "All lengths and positions.", "anchors": ["primo2/inference/factor.py:Factor.as_evidence"]}
{"id": "C11", "title": "Soft evidence as desired posterior is met", "statement": "as_evidence(v, values, e, oldMarginals=m) yields a likelihood L such that m*L renormalised equals e, whenever e is a distribution whose support lies in the support of m.", "quantifier": "all outcome counts, all old marginals and target distributions", "why_tests_cant": "A statement over all real vectors; the reference index (argmax) varies.", "anchors": ["primo2/inference/factor.py:Factor.as_evidence"]}
{"id": "C12", "title": "from_samples is the table of relative frequencies", "statement": "Factor.from_samples(samples, variableValues) on a non-empty sample list whose states only use declared outcomes has at every instantiation the number of matching samples divided by the number of samples; hence it is non-negative and sums to one.", "quantifier": "all sample lists and all variable dictionaries", "why_tests_cant": "All sample lists.", "anchors": ["primo2/inference/factor.py:Factor.from_samples"]}
{"id": "C13", "title": "naive_marginals is the exact posterior", "statement": "For every consistent network, every set of distinct query variables and every legal evidence (hard or soft), naive_marginals succeeds, its scope is exactly the query variables, and each entry is the sum over all instantiations of the other variables of the product of all table entries and evidence likelihoods, divided by the total of that product over all instantiations if positive.", "quantifier": "all networks of any size and structure, all queries, all evidence, all set-iteration orders", "why_tests_cant": "The claim is about every network; tests use one five-node network.", "anchors": ["primo2/inference/exact.py:VariableElimination.naive_marginals"]}
{"id": "C14", "title": "bucket_marginals is the exact posterior for every elimination order", "statement": "Same statement for bucket_marginals with any elimination order that lists every node once, and with the default min-degree order.", "quantifier": "all networks, queries, evidence and all permutations used as elimination order", "why_tests_cant": "n! orders per network; correctness needs a bucket-placement invariant.", "anchors": ["primo2/inference/exact.py:VariableElimination.bucket_marginals"]}
{"id": "C15", "title": "All exact elimination routes agree", "statement": "naive_marginals and bucket_marginals (any two orders) return the same potential at every instantiation of the query variables.", "quantifier": "all networks, queries, evidence, pairs of orders", "why_tests_cant": "Follows only from an all-orders argument.", "anchors": ["primo2/inference/exact.py:VariableElimination"]}
{"id": "C16", "title": "Hard evidence is equivalent to a one-hot array", "statement": "Replacing {E: value} by {E: one-hot array} anywhere in the evidence leaves every posterior returned by naive_marginals and bucket_marginals unchanged (the documented equivalence).", "quantifier": "all networks, queries and evidence", "why_tests_cant": "Documented for all evidence; tested nowhere.", "anchors": ["primo2/inference/exact.py:VariableElimination", "primo2/inference/factor.py:Factor.as_evidence"]}
{"id": "C17", "title": "Posteriors are probability distributions", "statement": "With non-negative tables and likelihoods, the result of an exact query is non-negative, and sums to 1 if the evidence has positive weight; if the evidence has weight zero the result is the all-zero table.", "quantifier": "all networks with non-negative tables, queries and evidence", "why_tests_cant": "All networks.", "anchors": ["primo2/inference/exact.py:VariableElimination", "primo2/inference/factor.py:Factor.normalize"]}
{"id": "C18", "title": "The product of the tables of an acyclic network is a probability distribution", "statement": "If every node's table is a conditional distribution (each column sums to 1) and the network is acyclic then the joint product sums to 1 over all instantiations, so prior marginals need no renormalisation and the prior of a root node is its own table.", "quantifier": "all acyclic networks of any size", "why_tests_cant": "Induction over a topological order.", "anchors": ["primo2/inference/exact.py:VariableElimination.naive_marginals", "primo2/nodes.py:DiscreteNode.set_cpd"]}
{"id": "C19", "title": "get_min_degree_order is a min-degree elimination order", "statement": "The returned list contains every node exactly once; every eliminated node has minimal degree in the graph obtained from the undirected skeleton by eliminating the earlier nodes with fill-in; two remaining nodes are adjacent in that graph iff they are linked by a path through eliminated nodes.", "quantifier": "all networks of any size and edge structure", "why_tests_cant": "Needs a loop invariant over all graphs.", "anchors": ["primo2/inference/order.py:Orderer.get_min_degree_order"]}
{"id": "C20", "title": "get_random_order lists every node once", "statement": "The returned names are exactly the node names, each once, in every state reachable through the network API.", "quantifier": "all API histories", "why_tests_cant": "All histories.", "anchors": ["primo2/inference/order.py:Orderer.get_random_order"]}
{"id": "C21", "title": "FactorTree.marginals is the exact posterior", "statement": "For every consistent network and evidence, FactorTree.create_jointree(bn).set_evidence(e) followed by marginals(vs), for vs inside some clique, returns the same table as naive_marginals(bn, vs, e).", "quantifier": "all networks, all evidence, all queries contained in a clique", "why_tests_cant": "Needs correctness of cluster construction and message passing for all graphs; tests use one loop-free-enough network.", "anchors": ["primo2/inference/exact.py:FactorTree.create_jointree", "primo2/inference/exact.py:FactorTree.set_evidence", "primo2/inference/exact.py:FactorTree.marginals", "primo2/inference/exact.py:FactorTree.calculate_messages"]}
{"id": "C22", "title": "Every table is assigned to exactly one clique", "statement": "For any elimination order listing every node once, each node's family is contained in some clique of create_jointree's result, and the product of the clique factors before message passing is the product of all tables; reset_factors restores exactly this.", "quantifier": "all networks and all elimination orders (with distinct clique names)", "why_tests_cant": "All orders and graphs.", "anchors": ["primo2/inference/exact.py:FactorTree.create_jointree", "primo2/inference/exact.py:FactorTree.reset_factors"]}
{"id": "C23", "title": "create_jointree yields a junction tree", "statement": "The cliques containing a variable are connected in the tree, separators are the intersections, and the tree is connected, for every network and elimination order.", "quantifier": "all networks and elimination orders", "why_tests_cant": "The running intersection property is a global graph property.", "anchors": ["primo2/inference/exact.py:FactorTree.create_jointree"]}
{"id": "C24", "title": "The default factor tree is exact on every connected polytree", "statement": "If the undirected skeleton of the network is a tree, create_jointree with the default order gives a junction tree and its marginals are exact.", "quantifier": "all connected singly-connected networks of any size, all evidence, all in-clique queries", "why_tests_cant": "All polytrees.", "anchors": ["primo2/inference/exact.py:FactorTree", "primo2/inference/order.py:Orderer.get_min_degree_order"]}
{"id": "C25", "title": "Message passing calibrates the tree", "statement": "On a junction tree, after calculate_messages every clique factor is the marginal of the product of all clique factors on the clique's variables, and the two cliques of an edge have the same marginal on the separator, which is the separator's factor; zeros never cause a division error.", "quantifier": "all junction trees with non-negative factors", "why_tests_cant": "All trees, induction over the recursion of pull and push.", "anchors": ["primo2/inference/exact.py:FactorTree.calculate_messages", "primo2/inference/exact.py:FactorTree.pull_messages", "primo2/inference/exact.py:FactorTree.push_messages"]}
{"id": "C26", "title": "Evidence in a factor tree does not accumulate", "statement": "After any history of set_evidence, reset_factors, calculate_messages and marginals calls (successful or failed), a successful set_evidence(e) makes marginals answer for e alone.", "quantifier": "all operation histories on a factor tree", "why_tests_cant": "All histories.", "anchors": ["primo2/inference/exact.py:FactorTree.set_evidence", "primo2/inference/exact.py:FactorTree.reset_factors"]}
{"id": "C27", "title": "FactorTree.marginals fails exactly for variables without common clique", "statement": "marginals(vs) raises ValueError iff no clique contains all of vs (on a junction tree); otherwise it returns a table over exactly vs and leaves the cliques unchanged.", "quantifier": "all junction trees and variable lists", "why_tests_cant": "All trees.", "anchors": ["primo2/inference/exact.py:FactorTree.marginals"]}
{"id": "C28", "title": "Soft posterior evidence on one variable is met by the factor tree", "statement": "After set_evidence({v: e}, softPosteriors=True), marginals([v]) returns e whenever e is a distribution supported in the prior support of v.", "quantifier": "all junction trees, variables and target distributions", "why_tests_cant": "All networks and targets.", "anchors": ["primo2/inference/exact.py:FactorTree.set_evidence", "primo2/inference/factor.py:Factor.as_evidence"]}
{"id": "C29", "title": "Factor trees answer for every component of a disconnected network", "statement": "For a network whose skeleton has several components, marginals of variables in any component are exact. A clique that is not connected to the first one answers from the tables and the evidence alone that it is the first clique to contain, takes no notice of evidence about variables outside it, and raises ValueError if it has to sum out a variable that occurs in none of these.", "quantifier": "all disconnected networks", "why_tests_cant": "All graphs; only a single isolated node is tested.", "anchors": ["primo2/inference/exact.py:FactorTree.calculate_messages"]}
{"id": "C30", "title": "Structural consistency under every API history", "statement": "After any sequence of add_node, remove_node, add_edge, remove_edge, change_node_values, change_node_name, clear and table updates, get_node(n).name == n, graph and lookup hold the same nodes, a node's parents list equals the graph's incoming edges, every parent entry is the network's own node object, and every table has one axis per variable of the right length.", "quantifier": "all API histories of any length", "why_tests_cant": "All histories.", "anchors": ["primo2/networks.py:BayesianNetwork", "primo2/nodes.py:DiscreteNode"]}
{"id": "C31", "title": "A node flagged valid has a table set for its current structure", "statement": "valid is True only if set_cpd succeeded after the last change of the node's values, parents or parents' values; every such change zeroes the table and clears the flag.", "quantifier": "all API histories", "why_tests_cant": "All histories.", "anchors": ["primo2/nodes.py:DiscreteNode._update_dimensions", "primo2/nodes.py:DiscreteNode.set_cpd", "primo2/networks.py:BayesianNetwork.change_node_values"]}
{"id": "C32", "title": "Rejected network operations change nothing", "statement": "add_node with a used name, add_edge or change_node_values or get_node with an unknown name, set_cpd with a wrong shape, and set_probability with unknown values raise and leave the network as it was; remove_node and remove_edge with unknown names do nothing.", "quantifier": "all reachable networks and all bad arguments", "why_tests_cant": "All states.", "anchors": ["primo2/networks.py:BayesianNetwork", "primo2/nodes.py:DiscreteNode.set_cpd"]}
{"id": "C33", "title": "Renaming a node changes nothing but the name", "statement": "change_node_name(old, new) with an unused new name keeps values, tables, valid flags, edges and every query answer up to the renaming; using a name already taken must not lose a node.", "quantifier": "all reachable networks, all nodes and names", "why_tests_cant": "All networks.", "anchors": ["primo2/networks.py:BayesianNetwork.change_node_name"]}
{"id": "C34", "title": "Removing a node or edge", "statement": "remove_node removes that node and its edges, zeroes and invalidates exactly its children's tables, and leaves every other node untouched; remove_edge does the same for one edge.", "quantifier": "all reachable networks", "why_tests_cant": "All networks.", "anchors": ["primo2/networks.py:BayesianNetwork.remove_node", "primo2/networks.py:BayesianNetwork.remove_edge"]}
{"id": "C35", "title": "set_probability writes exactly the designated cells", "statement": "After set_probability(v, p, pv), the probability of v given any parent instantiation that extends pv is p and all other cells are unchanged; unknown parents are ignored; unknown values raise ValueError and change nothing.", "quantifier": "all nodes with any number of parents, all partial parent assignments", "why_tests_cant": "All arities and partial assignments.", "anchors": ["primo2/nodes.py:DiscreteNode.set_probability", "primo2/nodes.py:DiscreteNode._get_single_probability"]}
{"id": "C36", "title": "get_probability and the fast path agree", "statement": "get_probability with all parents specified returns the same number as the single-probability accessor, and with unspecified parents returns the corresponding slice of the table.", "quantifier": "all nodes and assignments", "why_tests_cant": "All arities.", "anchors": ["primo2/nodes.py:DiscreteNode.get_probability", "primo2/nodes.py:DiscreteNode._get_single_probability"]}
{"id": "C37", "title": "Decision rules", "statement": "After set_decision(d) the decision node's table is 1 at d and 0 elsewhere for every parent instantiation; fully_mixed gives every decision equal probability and every column sums to 1; a rejected set_decision must leave the rule unchanged.", "quantifier": "all decision nodes with any parents", "why_tests_cant": "All arities.", "anchors": ["primo2/nodes.py:DecisionNode.set_decision", "primo2/nodes.py:DecisionNode.fully_mixed"]}
{"id": "C38", "title": "Utilities read back", "statement": "get_utility returns the last utility written by set_utility/set_utilities for that parent instantiation; partial assignments write all matching cells; missing parents raise KeyError on reading.", "quantifier": "all utility nodes and write histories", "why_tests_cant": "All arities and histories.", "anchors": ["primo2/nodes.py:UtilityNode.set_utility", "primo2/nodes.py:UtilityNode.get_utility", "primo2/nodes.py:UtilityNode.set_utilities"]}
{"id": "C39", "title": "Roulette-wheel sampling has the right distribution", "statement": "sample_value always returns one of the node's values, returns outcome i for a set of random numbers of total length weight_i / sum of weights, and never returns an outcome of weight zero except when the random number is exactly 0. (If all weights are zero it returns the first outcome.)", "quantifier": "all lists of non-negative weights with a positive total, all random numbers in [0,1)", "why_tests_cant": "A statement over a continuum of random numbers.", "anchors": ["primo2/nodes.py:DiscreteNode.sample_value"]}
{"id": "C40", "title": "The Markov-blanket weight is the full conditional up to a constant", "statement": "For every full state, the joint probability of the network with v set to a equals get_markov_prob(a) times a number that does not depend on a.", "quantifier": "all consistent networks, nodes, states", "why_tests_cant": "All networks.", "anchors": ["primo2/nodes.py:DiscreteNode.get_markov_prob", "primo2/networks.py:BayesianNetwork.get_children"]}
{"id": "C41", "title": "Gibbs steps leave the posterior invariant", "statement": "If the current state is distributed according to the posterior given hard evidence then so is the state after GibbsTransition.step, for single-site and full-sweep steps.", "quantifier": "all networks with non-negative tables, all evidence of positive probability", "why_tests_cant": "A distributional claim; tests only check that values are legal.", "anchors": ["primo2/inference/mcmc.py:GibbsTransition.step"]}
{"id": "C42", "title": "Metropolis-Hastings steps satisfy detailed balance and leave the posterior invariant", "statement": "The single-site Metropolis-Hastings transition is reversible with respect to the posterior given the evidence, and both modes leave the posterior invariant.", "quantifier": "all networks with non-negative tables, all evidence of positive probability", "why_tests_cant": "A distributional claim.", "anchors": ["primo2/inference/mcmc.py:MetropolisHastingsTransition.step"]}
{"id": "C43", "title": "Chains respect evidence and produce legal states", "statement": "Whatever the random numbers, every state yielded by generate_markov_chain gives every node one of its outcomes and every evidence variable its evidence value, and exactly numSamples states are yielded.", "quantifier": "all networks, evidence, seeds, burn-in and sample counts", "why_tests_cant": "All random sequences.", "anchors": ["primo2/inference/mcmc.py:MarkovChainSampler.generate_markov_chain", "primo2/inference/mcmc.py:MCMC.marginals"]}
{"id": "C44", "title": "Forward sampling draws from the joint distribution", "statement": "get_sample({}) on an acyclic network with proper tables returns each full instantiation with probability equal to the product of its table entries; with evidence, evidence variables keep their value and every other node is sampled from its table given its parents.", "quantifier": "all acyclic networks", "why_tests_cant": "A distributional claim over all networks.", "anchors": ["primo2/networks.py:BayesianNetwork.get_sample"]}
{"id": "C45", "title": "MCMC.marginals returns a distribution", "statement": "Whatever the random numbers, MCMC.marginals with numSamples > 0 returns a table over the query variables that is non-negative and sums to 1, and puts all mass of a queried evidence variable on its evidence value.", "quantifier": "all networks, evidence and random sequences", "why_tests_cant": "All random sequences.", "anchors": ["primo2/inference/mcmc.py:MCMC.marginals", "primo2/inference/factor.py:Factor.from_samples"]}
{"id": "C46", "title": "Time and evidence bookkeeping of dynamic inference", "statement": "t counts the unroll calls; unroll without argument uses evidence set since the last unroll, otherwise no evidence; evidence never leaks into the next slice.", "quantifier": "all histories of set_evidence and unroll calls", "why_tests_cant": "All histories.", "anchors": ["primo2/inference/dynamic.py:DBNInferenceMethod.unroll", "primo2/inference/dynamic.py:DBNInferenceMethod.set_evidence"]}
{"id": "C47", "title": "Prior feedback", "statement": "After PriorFeedbackExact.unroll, the prior table of every transition target in the two-slice network is the posterior marginal of its source in the slice just left; the answer in slice k is the exact posterior of the two-slice network with these priors and the evidence of slice k.", "quantifier": "all dynamic networks, all evidence histories of any length", "why_tests_cant": "All histories.", "anchors": ["primo2/inference/dynamic.py:PriorFeedbackExact._unroll", "primo2/inference/dynamic.py:PriorFeedbackExact._set_evidence"]}
{"id": "C48", "title": "Soft-evidence feedback", "statement": "After SoftEvidenceExact.unroll with a single transition (node, node_p) and no further evidence, the marginal of node in the next slice is the posterior marginal of node_p in the slice just left.", "quantifier": "all dynamic networks and histories", "why_tests_cant": "All histories.", "anchors": ["primo2/inference/dynamic.py:SoftEvidenceExact"]}
{"id": "C49", "title": "Transitions are checked", "statement": "add_transition raises StructureError and records nothing iff node_p is missing from B_0 or from the 2-TBN or node is missing from the 2-TBN; otherwise it appends the pair.", "quantifier": "all dynamic networks and pairs", "why_tests_cant": "All networks.", "anchors": ["primo2/networks.py:DynamicBayesianNetwork.add_transition"]}
{"id": "C50", "title": "Generalized variable elimination is exact", "statement": "generalized_VE eliminating all chance and decision variables in any order returns the probability total and the probability-weighted utility total divided by it, whatever order the factor sets are iterated in.", "quantifier": "all sets of joint factors with non-negative probability parts, all elimination orders, all set-iteration orders", "why_tests_cant": "All orders and factors.", "anchors": ["primo2/inference/decision.py:VariableElimination.generalized_VE"]}
{"id": "C51", "title": "expected_utility is the expected utility", "statement": "expected_utility(decisions) is the sum over all instantiations of the product of all tables (with the decisions' rules set) times the sum of all utilities; it fails exactly when the total probability weight is 0.", "quantifier": "all decision networks with non-negative tables, all decisions", "why_tests_cant": "All networks.", "anchors": ["primo2/inference/decision.py:VariableElimination.expected_utility"]}
{"id": "C52", "title": "get_optimal_decisions is optimal", "statement": "The returned decisions maximise expected_utility over all combinations of decisions.", "quantifier": "all decision networks with information-free decisions, all decision orders", "why_tests_cant": "All networks.", "anchors": ["primo2/inference/decision.py:VariableElimination.get_optimal_decisions", "primo2/inference/decision.py:VariableElimination._optimize_locally"]}
{"id": "C53", "title": "XMLBIF round trip", "statement": "Parsing a written network gives a network with the same name, nodes in the same order, outcomes, parent orders, tables and (if requested) properties.", "quantifier": "all consistent networks with non-empty names and outcomes", "why_tests_cant": "All networks; column-major reshaping and parent reversal must cancel for every arity.", "anchors": ["primo2/io.py:XMLBIFParser.write", "primo2/io.py:XMLBIFParser.parse"]}
{"id": "C54", "title": "XMLBIF table order", "statement": "The written TABLE lists the probabilities with the node's own outcome varying fastest, then the GIVEN variables from last to first, as the format prescribes; parse reads it the same way.", "quantifier": "all arities", "why_tests_cant": "All arities.", "anchors": ["primo2/io.py:XMLBIFParser.write", "primo2/io.py:XMLBIFParser.parse"]}
{"id": "C55", "title": "Dynamic network specification round trip", "statement": "DBNSpec.write(dbn, path, name) followed by DBNSpec.parse(path + name + '.conf') gives back the two networks and the transitions.", "quantifier": "all dynamic networks, paths and names", "why_tests_cant": "All paths and networks.", "anchors": ["primo2/io.py:DBNSpec.write", "primo2/io.py:DBNSpec.parse"]}
{"id": "C56", "title": "Inference on a network built through the interface", "statement": "Whatever sequence of (non-defective) interface calls built the network, including rejected calls, removals and renames, both elimination algorithms return the posterior defined by the tables now stored.", "quantifier": "all call histories, evidence, queries and set iteration orders", "why_tests_cant": "Quantifies over all histories of calls; tests only build networks in one straight line.", "anchors": ["primo2/networks.py:BayesianNetwork", "primo2/inference/exact.py:VariableElimination"]}
{"id": "C57", "title": "The samplers converge to the posterior", "statement": "The law of the state after k steps of generate_markov_chain tends to the posterior given the evidence as k grows, from every legal initial state; and for every eps the probability that an entry of MCMC.marginals differs from the posterior by eps or more tends to 0 as the number of samples grows.", "quantifier": "all networks, hard evidence, transition models, modes, burn-in lengths and query variables", "why_tests_cant": "A limit over all chain lengths, and a statement about probabilities.", "anchors": ["primo2/inference/mcmc.py:MCMC.marginals", "primo2/inference/mcmc.py:MarkovChainSampler.generate_markov_chain", "primo2/inference/mcmc.py:GibbsTransition.step", "primo2/inference/mcmc.py:MetropolisHastingsTransition.step"]}
{"id": "C58", "title": "Burn-in and the sequence of yielded states", "statement": "generate_markov_chain with burn-in b yields exactly the states that the same chain without burn-in yields after its first b states, for the same random numbers; the first state is one transition step away from the initial state, and the states after the m-th are those of a chain started in the m-th state.", "quantifier": "all networks, initial states, evidence, transition models, modes, burn-in lengths, numbers of samples and random numbers", "why_tests_cant": "Compares two runs on the same random numbers, for all lengths.", "anchors": ["primo2/inference/mcmc.py:MarkovChainSampler.generate_markov_chain"]}
{"id": "C59", "title": "Factors share no memory", "statement": "A program that creates, copies, combines, normalises and marginalises factors, reads arrays from them and assigns to elements of those arrays, of the factors' tables, variable lists and label dicts computes what it would compute if every factor and array held its own copy of everything: changing one object never changes another.", "quantifier": "all programs of factor operations, all input arrays, exceptions included", "why_tests_cant": "Quantifies over all sequences of operations and all later in-place changes; tests look at one object right after one call.", "anchors": ["primo2/inference/factor.py:Factor.copy", "primo2/inference/factor.py:Factor.from_node", "primo2/inference/factor.py:Factor.normalize", "primo2/inference/factor.py:Factor.get_potential", "primo2/inference/factor.py:Factor.as_evidence", "primo2/inference/factor.py:Factor.__mul__"]}
{"id": "C60", "title": "Multiplication does not modify its operands", "statement": "__mul__ (documented: 'will not modify the two factors in any way') and __add__ leave both operands, and every other factor, unchanged, for both values of useOther.", "quantifier": "all factors in all memory states, all set iteration orders, exceptions included", "why_tests_cant": "A frame property over all memory states.", "anchors": ["primo2/inference/factor.py:Factor.__mul__", "primo2/inference/factor.py:Factor.__add__"]}
{"id": "C61", "title": "Reusing an elimination order", "statement": "The list given to bucket_marginals as order may be used again for any number of queries, legal or not: every legal query is answered with the posterior, and the list is the same after the call as before.", "quantifier": "all networks, all sequences of calls with the same list object, set iteration orders", "why_tests_cant": "Quantifies over all sequences of calls sharing one mutable list.", "anchors": ["primo2/inference/exact.py:VariableElimination.bucket_marginals"]}
{"id": "C62", "title": "Illegal requests are refused, repeated variables do not matter", "statement": "naive_marginals, bucket_marginals and FactorTree.set_evidence raise if the query or the evidence names a variable or an outcome the network does not have, or an evidence array has the wrong length; repeating a variable in a query does not change the answer.", "quantifier": "all networks, evidence dicts, queries, orders, set iteration orders", "why_tests_cant": "All malformed inputs, not a few.", "anchors": ["primo2/inference/exact.py:VariableElimination.naive_marginals", "primo2/inference/exact.py:VariableElimination.bucket_marginals", "primo2/inference/exact.py:FactorTree.set_evidence", "primo2/inference/factor.py:Factor.as_evidence"]}
{"id": "C63", "title": "Accuracy with rounded arithmetic", "statement": "If tables and likelihoods are non-negative and every addition, multiplication and division has a relative error of at most u (floating point without over- and underflow; sums in any order), then naive_marginals and bucket_marginals return every posterior entry with at most naiveRoundings resp. bucketRoundings roundings (explicit counts, linear in the number of nodes, observations and outcomes plus the size of the result), FactorTree with a number of roundings that does not depend on the arithmetic; k roundings mean a relative error of at most 2ku (if 2ku <= 1) and never make or remove a zero; and exactly the same exceptions are raised as with exact numbers.", "quantifier": "all accurate arithmetics, networks, evidence, queries, orders, histories of FactorTree calls", "why_tests_cant": "Tests compare a few results to a tolerance; this bounds the error of all inputs and all orders of summation.", "anchors": ["primo2/inference/exact.py:VariableElimination.naive_marginals", "primo2/inference/exact.py:VariableElimination.bucket_marginals", "primo2/inference/exact.py:FactorTree.marginals", "primo2/inference/exact.py:FactorTree.set_evidence", "primo2/inference/factor.py:Factor.normalize", "primo2/inference/factor.py:Factor.invert", "primo2/inference/factor.py:Factor.as_evidence"]}
{"id": "C64", "title": "Decision networks built through the API are consistent", "statement": "After any sequence of DecisionNetwork.add_node / add_edge, table assignments and decision-making calls (exceptions caught), the decision network is consistent (distinct names, every parent is the network's own chance or decision node, tables have one axis per variable), so that expected_utility writes exactly the given decisions into the decision nodes and returns the expected utility defined by the stored tables.", "quantifier": "all call histories, node objects, decisions, iteration orders", "why_tests_cant": "Histories and aliasing of node objects are unbounded.", "anchors": ["primo2/networks.py:DecisionNetwork.add_node", "primo2/networks.py:DecisionNetwork.add_edge", "primo2/inference/decision.py:VariableElimination.expected_utility", "primo2/nodes.py:UtilityNode.add_parent", "primo2/nodes.py:DecisionNode.add_parent"]}
{"id": "C65", "title": "Programs that use the chain get its states", "statement": "generate_markov_chain runs nothing until the first next, then hands out the states of the chain one by one; a program that uses it (interleaving several chains, keeping, copying, reading and changing dicts) gets the same results as if every state were a dict of its own, and MCMC.marginals, which counts each state before the next is drawn, returns each table with the same probability as if it counted the finished list of states.", "quantifier": "all programs (trees of calls), networks, samplers, initial states, evidence, random numbers", "why_tests_cant": "Programs and random numbers are unbounded; aliasing errors depend on the calling program.", "anchors": ["primo2/inference/mcmc.py:MarkovChainSampler.generate_markov_chain", "primo2/inference/mcmc.py:MCMC.marginals", "primo2/inference/mcmc.py:GibbsTransition.step", "primo2/inference/mcmc.py:MetropolisHastingsTransition.step", "primo2/inference/factor.py:Factor.from_samples"]}
{"id": "C66", "title": "Queries leave tables, evidence and earlier results alone", "statement": "A program that mixes factor operations, element assignments, naive_marginals, bucket_marginals, create_jointree, reset_factors, set_evidence, calculate_messages and marginals on shared node tables and soft-evidence arrays gets the same results and exceptions as if every query were a function of the tables and evidence at the time of the call and every factor tree a value of its own: queries change nothing the program can see, a method of a tree changes only that tree, assignments to node tables, evidence arrays or earlier answers never reach an existing tree, and answers stay exact under all of this.", "quantifier": "all programs, input arrays, networks, evidence, iteration orders, recursion limits, exceptions included", "why_tests_cant": "Quantifies over all interleavings of calls and in-place changes; which buffers are shared between a tree, the network and the answers is invisible to tests that look at one call.", "anchors": ["primo2/inference/exact.py:VariableElimination.naive_marginals", "primo2/inference/exact.py:VariableElimination.bucket_marginals", "primo2/inference/exact.py:FactorTree.create_jointree", "primo2/inference/exact.py:FactorTree.set_evidence", "primo2/inference/exact.py:FactorTree.marginals", "primo2/inference/factor.py:Factor.copy", "primo2/inference/factor.py:Factor.from_node", "primo2/inference/factor.py:Factor.as_evidence"]}
{"id": "C67", "title": "Element types of tables do not matter", "statement": "A node stores the probabilities and utilities that it is given, whatever the element type (integers, truth values, floats) of the array that was assigned before; factor operations, inference and expected utilities give the same numbers and exceptions for a table of integers or truth values as for the same numbers stored as floats.", "quantifier": "all element types, tables, sequences of node calls, programs of factor operations and queries, networks, iteration orders", "why_tests_cant": "Tests use arrays of floats almost everywhere; silent conversion shows only for some numbers, and the sum of truth values only for some iteration orders.", "anchors": ["primo2/nodes.py:DiscreteNode.set_cpd", "primo2/nodes.py:DiscreteNode.set_probability", "primo2/nodes.py:UtilityNode.set_utilities", "primo2/nodes.py:UtilityNode.set_utility", "primo2/inference/factor.py:Factor.normalize", "primo2/inference/factor.py:Factor.__add__", "primo2/inference/exact.py:VariableElimination.bucket_marginals", "primo2/inference/exact.py:FactorTree.set_evidence", "primo2/inference/decision.py:VariableElimination.generalized_VE"]}
{"id": "C68", "title": "Counting edges tells whether a factor tree is exact", "statement": "For a connected network whose variables have at least two outcomes and any elimination order listing every node once, the tree made by create_jointree answers all queries with the posterior, for all conditional probability tables and all evidence, if and only if it has one edge less than cliques (equivalently: the cliques containing a variable are connected through cliques containing it).  Otherwise uniform tables and one hard observation give a wrong answer for some clique.  For networks in general the answers are exact for all tables and all evidence of positive probability if and only if the cliques containing a variable are connected through cliques containing it and every clique that is not connected to the first one shares no variable with another clique.", "quantifier": "all networks, elimination orders, tables, evidence, covered queries, set iteration orders, recursion limits", "why_tests_cant": "Both directions quantify over all tables and evidence; a test suite can only find trees that are wrong for the tables it tries.", "anchors": ["primo2/inference/exact.py:FactorTree.create_jointree", "primo2/inference/exact.py:FactorTree.set_evidence", "primo2/inference/exact.py:FactorTree.calculate_messages", "primo2/inference/exact.py:FactorTree.marginals", "primo2/inference/exact.py:FactorTree.pull_messages", "primo2/inference/exact.py:FactorTree.push_messages"]}
{"id": "C69", "title": "Networks do not notice that their keys can change, and do not disturb each other", "statement": "networkx keys its dictionaries by node objects whose hash and equality follow the current name, while a dictionary keeps the hash a key had when it was inserted.  In any history of calls (node arguments by name or by object, exceptions caught) on any number of networks that use no node object in common, no dictionary ever holds a key under an outdated hash; nodes, lookup, edges, exceptions and answers of every network are those of a network keyed by names on which only its own calls were made; so a network whose own calls are good (C30) is coherent.  (If two networks share a node object this is false: a rename or a new edge in one of them breaks the other.)", "quantifier": "all histories, hash functions (any collisions), numbers of networks, interleavings, arguments by name or object", "why_tests_cant": "Hashes of strings are salted per process and collisions are rare, so a stale key may be found by luck; histories and interleavings are unbounded.", "anchors": ["primo2/networks.py:BayesianNetwork.change_node_name", "primo2/networks.py:BayesianNetwork.add_node", "primo2/networks.py:BayesianNetwork.remove_node", "primo2/networks.py:BayesianNetwork.remove_edge", "primo2/networks.py:BayesianNetwork.add_edge", "primo2/networks.py:BayesianNetwork.get_children", "primo2/nodes.py:RandomNode.__eq__", "primo2/nodes.py:RandomNode.__hash__"]}
{"id": "C70", "title": "Dynamic inference filters the unrolled network", "statement": "Let a dynamic network be unrolled into one network over the slices 0..k, each transition target of a slice being a copy of its source in the slice before.  After any history of unroll, set_evidence and queries, marginals and marginal_probabilities of PriorFeedbackExact return the posterior of the unrolled network given the evidence of all slices; SoftEvidenceExact does so too, with arrays read as posteriors to be produced within their slice, and both methods return the same numbers for observed outcomes.", "quantifier": "all dynamic networks, histories, evidence, queries within a family, numbers of slices, namings of the unrolled nodes, set iteration orders, recursion limits", "why_tests_cant": "The unrolled network grows with the number of slices and its joint distribution exponentially; a test compares a few slices of a few networks.", "anchors": ["primo2/inference/dynamic.py:PriorFeedbackExact.unroll", "primo2/inference/dynamic.py:PriorFeedbackExact.set_evidence", "primo2/inference/dynamic.py:PriorFeedbackExact.marginals", "primo2/inference/dynamic.py:SoftEvidenceExact.unroll", "primo2/inference/dynamic.py:SoftEvidenceExact.set_evidence", "primo2/inference/dynamic.py:SoftEvidenceExact.marginals"]}
{"id": "C71", "title": "Only the query, the evidence and their ancestors matter", "statement": "If two networks agree on the query variables, the variables with evidence and all ancestors of these (outcomes, parents, tables), the answers of naive_marginals, bucket_marginals and exact factor trees are the same on both, however the rest of the networks differs.  In particular, in any state built by calls of the network class, removing a childless node that is neither queried nor observed changes no answer.", "quantifier": "all pairs of networks, evidence (hard and soft), queries, methods, elimination orders, set iteration orders; all histories of network calls", "why_tests_cant": "The property relates two runs on arbitrarily different networks; a test compares a few hand-made pairs.", "anchors": ["primo2/inference/exact.py:VariableElimination.naive_marginals", "primo2/inference/exact.py:VariableElimination.bucket_marginals", "primo2/inference/exact.py:FactorTree.marginals", "primo2/networks.py:BayesianNetwork.remove_node", "primo2/inference/factor.py:Factor.marginalize", "primo2/inference/factor.py:Factor.from_node"]}
{"id": "C72", "title": "Independence can be read off the graph", "statement": "If the evidence d-separates two sets of variables in the graph (soft evidence opens colliders but blocks nothing), the answer for both sets together is the product of the answers for each, for all normalised tables and whichever exact methods are used; further evidence on the one set does not change the answers for the other.  Parents separate a variable from its non-descendants, the Markov blanket from everything, and variables without common ancestors are independent without evidence.", "quantifier": "all acyclic networks, tables, evidence, disjoint or overlapping query sets, methods, elimination orders, set iteration orders", "why_tests_cant": "Independence is a statement about all tables of a graph and all rows of the answers; rounding hides exact equality in tests.", "anchors": ["primo2/inference/exact.py:VariableElimination.naive_marginals", "primo2/inference/exact.py:VariableElimination.bucket_marginals", "primo2/inference/exact.py:FactorTree.set_evidence", "primo2/inference/exact.py:FactorTree.marginals", "primo2/inference/factor.py:Factor.as_evidence"]}
{"id": "C73", "title": "The graph implies no other independence", "statement": "If the evidence does not d-separate two disjoint sets of variables with at least two outcomes each, there are positive normalised tables for the same graph (and positive entries for the arrays among the evidence) with which the joint answer of the exact methods differs from the product of the single answers.  So the answers are independent for all tables exactly if the graph says so, and d-separation is symmetric.", "quantifier": "all acyclic networks, evidence (hard and soft), disjoint query sets, methods, elimination orders, set iteration orders", "why_tests_cant": "The tables have to be found for each of infinitely many graphs and trails; random tables show dependence only for the graphs tried.", "anchors": ["primo2/inference/exact.py:VariableElimination.naive_marginals", "primo2/inference/exact.py:VariableElimination.bucket_marginals", "primo2/inference/exact.py:FactorTree.set_evidence", "primo2/inference/exact.py:FactorTree.marginals", "primo2/inference/factor.py:Factor.as_evidence"]}
{"id": "C74", "title": "Answers to different queries fit together", "statement": "For the exact methods, mixed freely: marginalize applied to an answer gives the answer to the smaller query; the product rule P(Q, v=x | e) = P(Q | v=x, e) P(v=x | e), Bayes' rule and the law of total probability hold between the numbers returned by separate calls, also if the evidence is impossible; entering further evidence of either kind multiplies an answer with its likelihoods and divides it by the probability of that evidence; and the order of the evidence does not matter.", "quantifier": "all networks with non-negative tables (normalised or not), evidence (hard and soft), queries, methods, elimination orders, set iteration orders", "why_tests_cant": "The laws relate several calls with different arguments and methods; tests check single calls against fixed numbers.", "anchors": ["primo2/inference/exact.py:VariableElimination.naive_marginals", "primo2/inference/exact.py:VariableElimination.bucket_marginals", "primo2/inference/exact.py:FactorTree.set_evidence", "primo2/inference/exact.py:FactorTree.marginals", "primo2/inference/factor.py:Factor.marginalize", "primo2/inference/factor.py:Factor.as_evidence"]}
{"id": "C75", "title": "Evidence matters up to scale only", "statement": "Two pieces of non-negative evidence give the same answers if for every variable the likelihoods they give to its outcomes agree up to a positive factor (scaled arrays, arrays of equal numbers and no evidence, an array with one positive entry and the outcome itself, other order of the dict).  Otherwise, if the first one is not all zero for a variable, there are positive normalised tables for the same graph with which some answer about a single variable differs.", "quantifier": "all networks with non-negative tables, pairs of evidence (hard and soft), queries, methods, elimination orders, set iteration orders", "why_tests_cant": "Quantifies over all pairs of evidence and, for the converse, over all tables of a graph.", "anchors": ["primo2/inference/exact.py:VariableElimination.naive_marginals", "primo2/inference/exact.py:VariableElimination.bucket_marginals", "primo2/inference/exact.py:FactorTree.set_evidence", "primo2/inference/exact.py:FactorTree.marginals", "primo2/inference/factor.py:Factor.as_evidence", "primo2/inference/factor.py:Factor.normalize"]}
{"id": "C76", "title": "How a model is written down does not matter", "statement": "If two networks differ only in the order of their nodes, of the (distinct) outcomes of variables and of the parents of nodes, with tables and soft evidence arrays arranged accordingly, the exact methods return the same number for the same outcomes; get_potential with one outcome per variable returns the same value on both answers.", "quantifier": "all pairs of networks with non-negative tables, evidence (hard and soft), queries, outcomes, methods, elimination orders, set iteration orders", "why_tests_cant": "The number of ways to write a model down grows with factorials of nodes, outcomes and parents; axis mix-ups show only for asymmetric tables.", "anchors": ["primo2/inference/exact.py:VariableElimination.naive_marginals", "primo2/inference/exact.py:VariableElimination.bucket_marginals", "primo2/inference/exact.py:FactorTree.marginals", "primo2/inference/factor.py:Factor.from_node", "primo2/inference/factor.py:Factor.__mul__", "primo2/inference/factor.py:Factor.get_potential", "primo2/inference/factor.py:Factor.as_evidence"]}
{"id": "C77", "title": "Factor trees do not outgrow their cliques", "statement": "The cliques made by create_jointree are the maximal ones among the sets of a variable and its later moral neighbours: at most as many as nodes, each such set within one, none within another; they are complete exactly for perfect orders.  Whatever calls follow, each clique keeps its variables and its table has no others, so it never has more entries than the clique has instantiations; likewise for separators.  On polytrees the cliques of the default tree are the maximal families, so all tables of the tree have together at most as many entries as those of the network.", "quantifier": "all consistent networks with unique concatenations, elimination orders, histories of calls with any evidence and tables over the same outcomes, set iteration orders, recursion limits", "why_tests_cant": "Invariant of all histories, including failing calls; sizes are not observable through the results that tests compare.", "anchors": ["primo2/inference/exact.py:FactorTree.create_jointree", "primo2/inference/exact.py:FactorTree.reset_factors", "primo2/inference/exact.py:FactorTree.set_evidence", "primo2/inference/exact.py:FactorTree.pull_messages", "primo2/inference/exact.py:FactorTree.push_messages", "primo2/inference/order.py:Orderer.get_min_degree_order"]}
{"id": "C78", "title": "Answers change little if tables and evidence change little", "statement": "If the entries of each table and the likelihoods of each variable change by factors within an interval, then the odds of any two outcomes of any query change by at most the product of the ratios of the interval ends, every probability by at most that factor, and the difference is at most (s-1)/(s+1) where s squared bounds the product; zeros stay zeros.  The bounds are attained for every graph.  Nothing like it holds for changes measured as differences.", "quantifier": "all consistent networks, graphs (also different ones), nonnegative tables, legal nonnegative evidence, queries, exact methods, factors", "why_tests_cant": "Bounds over all tables and all changes of them; tests compare with fixed numbers.", "anchors": ["primo2/inference/exact.py:VariableElimination.naive_marginals", "primo2/inference/exact.py:VariableElimination.bucket_marginals", "primo2/inference/exact.py:FactorTree.marginals", "primo2/nodes.py:DiscreteNode.set_cpd"]}
{"id": "C79", "title": "Utilities matter up to scale and shift, and decisions are stable", "statement": "If the utilities are multiplied by a and shifted by b in total, expected utilities follow and, for positive a, the optimal decisions stay the same.  If they are off by at most epsilon, so are the expected utilities, and a single decision chosen with the wrong utilities is at most 2 epsilon worse than the best one, which is sharp.  If tables and rules are off by ratios with product K, then so are non-negative expected utilities, and others by at most (K-1) times the largest utility.  Changes of utilities that are not affine can change the decision although they keep the order of all outcomes.", "quantifier": "all consistent decision networks with non-negative tables, decisions, orders of free decision nodes, set iteration orders, numbers a, b, epsilon, ratios", "why_tests_cant": "Compares the answers for all pairs of networks with similar utilities or tables; tests fix one network.", "anchors": ["primo2/inference/decision.py:VariableElimination.expected_utility", "primo2/inference/decision.py:VariableElimination.get_optimal_decisions", "primo2/inference/decision.py:VariableElimination._optimize_locally", "primo2/nodes.py:UtilityNode.set_utilities"]}
{"id": "C80", "title": "Soft evidence is an observed leaf", "statement": "An array of likelihoods for a variable gives the same answers as the observation of one more variable, a childless child of it whose table has the array, up to a positive factor, as the row of the observed outcome; this holds whatever else is known, also about the variable itself, so several such reports act like the entrywise product of their arrays.  Such a leaf can be added under any new name, by calls of the network class that succeed in every usable state; hence evidence without arrays suffices for every question.", "quantifier": "all consistent networks with non-negative tables, evidence (hard and soft), likelihoods, queries, methods, elimination orders, set iteration orders; all good histories of network calls", "why_tests_cant": "Relates answers on two different networks for all tables and arrays; tests check few arrays against fixed numbers.", "anchors": ["primo2/inference/exact.py:VariableElimination.naive_marginals", "primo2/inference/exact.py:VariableElimination.bucket_marginals", "primo2/inference/exact.py:FactorTree.set_evidence", "primo2/inference/factor.py:Factor.as_evidence", "primo2/networks.py:BayesianNetwork.add_node", "primo2/networks.py:BayesianNetwork.add_edge", "primo2/nodes.py:DiscreteNode.set_cpd"]}
{"id": "C81", "title": "Sampling survives rounding and random numbers of finite precision", "statement": "If every operation has a relative error of at most u and random.random() returns k/N with each k < N equally likely, where u N <= 1 (for floats u = 1/N = 2^-53), then forward sampling, Gibbs sampling and Metropolis-Hastings never get None from the roulette wheel and return legal states and tables; the probability of each single change, and of each event of forward sampling, is that of the exact sampler up to a small explicit error.  If all states that agree with the evidence are possible, or with Metropolis-Hastings if the possible ones are connected, the law of the chain and the estimated marginals are those of the posterior up to terms that vanish with the number of steps or samples, and a multiple of that error, with constants that do not depend on the arithmetic.  For Gibbs sampling connected states are not enough: a random number 0 selects the first outcome even with weight 0, and the chain can be caught there for good.", "quantifier": "all consistent networks with non-negative tables, legal hard evidence, arithmetics of bounded relative error (no under- or overflow), numbers of random values, numbers of steps and samples, random numbers", "why_tests_cant": "Rounding errors and random numbers equal to 0 are far too rare to be observed; the statements bound probabilities of whole runs.", "anchors": ["primo2/nodes.py:DiscreteNode.sample_value", "primo2/nodes.py:DiscreteNode.get_markov_prob", "primo2/networks.py:BayesianNetwork.get_sample", "primo2/inference/mcmc.py:GibbsTransition.step", "primo2/inference/mcmc.py:MetropolisHastingsTransition.step", "primo2/inference/mcmc.py:MarkovChainSampler.generate_markov_chain", "primo2/inference/mcmc.py:MCMC.marginals", "primo2/inference/factor.py:Factor.from_samples"]}
{"id": "C82", "title": "Expected utilities and decisions survive rounding", "statement": "If every operation has a relative error of at most u, expected_utility raises what it raises with exact arithmetic, and otherwise differs from the exact expected utility by at most e = 1/(1-u)^R - 1 times the expected sum of the absolute utilities, where R is a number of roundings given by the sizes of the network; for utilities of one sign this is a relative error of e.  get_optimal_decisions returns decisions that are optimal (in the sense of C52) up to the errors of the two decisions compared, and the same ones as exact arithmetic if the margins exceed the errors; a single decision loses at most 2 e M for utilities bounded by M.  For floats e is at most (R+1) 2^-53.  The relative error is not bounded for utilities of both signs, and rounding can change the decision for a worse one.", "quantifier": "all consistent decision networks with non-negative tables, decisions, orders of free decision nodes, arithmetics of bounded relative error (no under- or overflow), set iteration orders", "why_tests_cant": "Bounds over all networks and all ways of rounding; tests compare a few numbers up to a fixed tolerance.", "anchors": ["primo2/inference/decision.py:VariableElimination.generalized_VE", "primo2/inference/decision.py:VariableElimination.expected_utility", "primo2/inference/decision.py:VariableElimination.get_optimal_decisions", "primo2/inference/decision.py:VariableElimination._optimize_locally", "primo2/nodes.py:DecisionNode.fully_mixed"]}
{"id": "C83", "title": "The answers of a factor tree are as accurate as the size of the network says", "statement": "If every operation has a relative error of at most u, the answers of a factor tree on a connected network whose tree has the running intersection property are the posteriors up to a number of roundings that is a polynomial of the number of nodes, of outcomes and of observations, however the tree was used before: errors do not accumulate from one set_evidence to the next.  The same holds for queries without evidence on a new or reset tree and, with a bound that includes the accuracy of the old marginals, for posteriors entered as evidence (softPosteriors).  Zeros are exact.", "quantifier": "all networks with non-negative tables whose tree has the running intersection property, legal evidence, histories of calls (also with other networks and failing calls), queries within a clique, arithmetics of bounded relative error (no under- or overflow), set iteration orders", "why_tests_cant": "A bound for all networks and all ways of rounding; C63 only has the existence of a bound that depends on the history.", "anchors": ["primo2/inference/exact.py:FactorTree.set_evidence", "primo2/inference/exact.py:FactorTree.reset_factors", "primo2/inference/exact.py:FactorTree.calculate_messages", "primo2/inference/exact.py:FactorTree.pull_messages", "primo2/inference/exact.py:FactorTree.push_messages", "primo2/inference/exact.py:FactorTree.marginals", "primo2/inference/factor.py:Factor.as_evidence"]}
{"id": "C84", "title": "Messages are exchanged completely and in order", "statement": "calculate_messages sends over each edge of the tree that is reached from the first clique exactly one message in each direction and no other messages, each only after its sender has received the messages of all its other neighbours; these are two messages for each clique reached, without the first one; if the network is connected and the tree has the running intersection property all cliques are reached.  The order does not depend on tables, evidence, set iteration orders or earlier calls.", "quantifier": "all networks and elimination orders (also those whose tree lacks running intersections), histories of calls, tables, arithmetics, set iteration orders, recursion limits of at least the number of nodes", "why_tests_cant": "The order of messages is not observable through results; tests see only the final tables of small trees.", "anchors": ["primo2/inference/exact.py:FactorTree.calculate_messages", "primo2/inference/exact.py:FactorTree.pull_messages", "primo2/inference/exact.py:FactorTree.push_messages", "primo2/inference/exact.py:FactorTree.create_jointree"]}
{"id": "C85", "title": "Dynamic inference with prior feedback stays accurate over the slices", "statement": "If every operation has a relative error of at most u, then after any history of allowed calls of a PriorFeedbackExact object each entry of an answer is, up to an explicit number of roundings, the posterior in the network that prior feedback prescribes with exact arithmetic, although each slice starts from a prior that was itself computed with errors.  The number is computed from the sizes of the two networks, the transitions and the numbers of observations; with one transition it grows linearly with the number of slices.  All allowed calls succeed, as with exact arithmetic.", "quantifier": "all dynamic networks with non-negative tables whose two networks are connected and have trees with running intersections, all histories of set_evidence, unroll and queries with legal evidence, arithmetics of bounded relative error (no under- or overflow), set iteration orders", "why_tests_cant": "Errors of one slice enter the next one through its prior and are divided by the probability of evidence there; that they stay small for every evidence and any number of slices is not visible in runs of a few slices.", "anchors": ["primo2/inference/dynamic.py:PriorFeedbackExact._set_evidence", "primo2/inference/dynamic.py:PriorFeedbackExact._unroll", "primo2/inference/dynamic.py:PriorFeedbackExact.marginals", "primo2/inference/dynamic.py:PriorFeedbackExact.marginal_probabilities", "primo2/inference/dynamic.py:DBNInferenceMethod.unroll", "primo2/nodes.py:DiscreteNode.set_cpd", "primo2/inference/exact.py:FactorTree.set_evidence"]}
{"id": "C86", "title": "Dynamic inference with soft evidence stays accurate over the slices", "statement": "If every operation has a relative error of at most u, then after any history of calls of a SoftEvidenceExact object with evidence that can be met, each entry of an answer is, up to an explicit number of roundings, the posterior that C48 states for exact arithmetic: in the network of the slice, under the evidence and the exact posterior marginals of the slice left, although the arrays carried over, the old marginals by which they are divided and the trees were computed with errors.  The number is computed from the sizes of the two networks, the transitions and the variables observed; with one transition it grows linearly with the number of slices.  All such calls succeed, and whether evidence can be met is judged with exact arithmetic.", "quantifier": "all dynamic networks with non-negative tables whose two networks are connected and have trees with running intersections, all histories of set_evidence, unroll and queries with legal hard and soft evidence, arithmetics of bounded relative error (no under- or overflow), set iteration orders", "why_tests_cant": "Errors of one slice enter the next one through a quotient of two computed marginals; that neither zeros nor errors grow out of hand for any evidence and number of slices is not visible in runs of a few slices.", "anchors": ["primo2/inference/dynamic.py:SoftEvidenceExact._set_evidence", "primo2/inference/dynamic.py:SoftEvidenceExact._unroll", "primo2/inference/dynamic.py:SoftEvidenceExact.marginals", "primo2/inference/dynamic.py:SoftEvidenceExact.marginal_probabilities", "primo2/inference/dynamic.py:DBNInferenceMethod.unroll", "primo2/inference/exact.py:FactorTree.set_evidence", "primo2/inference/factor.py:Factor.as_evidence"]}
{"id": "C87", "title": "Variable elimination in double precision", "statement": "naive_marginals and bucket_marginals computed with IEEE double precision numbers, with underflow and with anything at all in place of numbers that are too large: if the numbers of the network and of the evidence that are not zero lie between 2^-a and 2^b, and (a+b) times the number of nodes and observations plus the number of roundings is at most 1021, every entry of the answer is within a relative error of 2^-42 of the posterior, and it is zero exactly when the posterior is zero.  More generally this holds for every arithmetic whose relative error is bounded for results between d and 1/d.  Without the condition on the size of the numbers it fails: there are networks and evidence for which a table of zeros is returned.", "quantifier": "all consistent networks with tables whose numbers that are not zero are neither too small nor too large, legal evidence, queries, elimination orders, set iteration orders, orders of additions, all behaviours of numbers that are too large", "why_tests_cant": "Underflow shows only for networks of many nodes or for rare events, where the exact answer is not known to a test; the bound covers all inputs in the stated range.", "anchors": ["primo2/inference/exact.py:VariableElimination.naive_marginals", "primo2/inference/exact.py:VariableElimination.bucket_marginals", "primo2/inference/factor.py:Factor.__mul__", "primo2/inference/factor.py:Factor.marginalize", "primo2/inference/factor.py:Factor.normalize"]}
{"id": "C88", "title": "Bucket elimination builds the tables of the elimination graph, and no larger ones", "statement": "When bucket_marginals sums out a variable, its bucket is a table over exactly this variable and the variables to which it is connected, directly or through variables summed out before, in the moral graph of the network; no bucket is ever larger than at its turn, the buckets of queried variables are over queried variables only and the extra bucket is a number.  Evidence and set iteration orders do not change any of this, and querying Q adds at most Q to each table.  naive_marginals builds the table over all variables instead.  The default order keeps these tables small.", "quantifier": "all consistent networks, legal evidence, queries without repetitions, elimination orders (given or default), set iteration orders, iterations of the loop", "why_tests_cant": "Sizes of intermediate tables are not part of any result; that they stay small, or grow exponentially, shows only as memory use on networks larger than those of the tests.", "anchors": ["primo2/inference/exact.py:VariableElimination.bucket_marginals", "primo2/inference/exact.py:VariableElimination.naive_marginals", "primo2/inference/order.py:Orderer.get_min_degree_order", "primo2/inference/factor.py:Factor.__mul__", "primo2/inference/factor.py:Factor.marginalize"]}
{"id": "C89", "title": "Every network can be built through the interface", "statement": "For each network of chance nodes that is consistent (distinct names, parents that are other nodes of the network, tables of the right shape), whose graph agrees with the parent lists and whose variables have outcomes, constructing the nodes, adding them, adding the arcs and setting the tables raises nothing and yields exactly this network, with all tables marked valid, whatever the order in which arcs of different nodes are added and tables are set; inference then returns its posterior.  Conversely good histories lead to no other networks.  These include cyclic graphs: arcs that close a cycle are accepted.", "quantifier": "all networks of chance nodes, all orders of arcs that keep the order of each node's parents, all orders (and repetitions) of the calls that set tables", "why_tests_cant": "Tests build a handful of networks, in one order of calls each; that no network is out of reach and that the order of calls leaves no trace is a statement about all networks and programs.", "anchors": ["primo2/networks.py:BayesianNetwork.add_node", "primo2/networks.py:BayesianNetwork.add_edge", "primo2/nodes.py:DiscreteNode.__init__", "primo2/nodes.py:DiscreteNode.add_parent", "primo2/nodes.py:DiscreteNode._update_dimensions", "primo2/nodes.py:DiscreteNode.set_cpd"]}
{"id": "C90", "title": "How long the samplers have to run", "statement": "If no table entry that agrees with the evidence is smaller than a, the distribution of the state after k steps of Gibbs or Metropolis-Hastings sampling differs from the posterior by at most (1-d)^(k/m), for every set of states and every state at the start, where m and d are computed from the network: m is 1 if every step changes all unobserved variables, else their number; d is the product over the unobserved variables of a^(1 + number of children), for Gibbs sampling times the number of outcomes, and if a step changes one variable only, times m!/m^m.  So m * ceil(log(1/h)/d) steps bring the error below h.  The estimate of MCMC.marginals from N samples is within e of the posterior in all its s entries with probability at least 1 - s(1 + 2m/d)/(N e^2), whatever the burn-in.  With rounded arithmetic the law is off by an explicit further term.  That m/d grows without limit as a tends to zero is not an artefact: there is a network of two nodes with entries of at least a in which both samplers are still in the state they started from after k steps with probability (1-a)^(2k).", "quantifier": "all consistent acyclic networks with stochastic tables, legal hard evidence for which the tables have a positive lower bound, both transition models, both modes, states at the start, numbers of steps, burn-ins, numbers of samples, queries", "why_tests_cant": "Whether a chain has run long enough cannot be seen in its output: the test suite runs a fixed number of steps on one network and compares with a tolerance.", "anchors": ["primo2/inference/mcmc.py:GibbsTransition.step", "primo2/inference/mcmc.py:MetropolisHastingsTransition.step", "primo2/inference/mcmc.py:MarkovChainSampler.generate_markov_chain", "primo2/inference/mcmc.py:MCMC.marginals"]}
{"id": "C91", "title": "Factor trees in double precision", "statement": "FactorTree computed with IEEE double precision numbers, with underflow and with anything at all in place of numbers that are too large: if the numbers of the network and of the evidence that are not zero lie between 2^-a and 2^b, and (a+b) times the number of nodes and observations plus 4 per node, 1 per observation, twice the number of additions in a sum over all variables and the size of the answer is at most 1021, then after any history of calls each answer of marginals to a set of variables within one clique is within a relative error of 2^-31 of the posterior, entry by entry, and zero exactly where the posterior is zero; no call raises.  More generally this holds for every arithmetic whose relative error is bounded for results between d and 1/d.  Without the condition on the size of the numbers it fails: there are a network and evidence for which a table of zeros is returned.", "quantifier": "all connected networks whose tree has running intersections with tables whose numbers that are not zero are neither too small nor too large, legal evidence (softPosteriors=False), histories of set_evidence, reset_factors and queries on the same tree (which may involve evidence out of range), set iteration orders, orders of additions, all behaviours of numbers that are too large", "why_tests_cant": "A message of a tree is a product of many tables, divided by another message on the way back; whether one of them underflows depends on the whole network, and underflow shows only for networks or rare events whose exact answer is not known to a test.", "anchors": ["primo2/inference/exact.py:FactorTree.create_jointree", "primo2/inference/exact.py:FactorTree.set_evidence", "primo2/inference/exact.py:FactorTree.reset_factors", "primo2/inference/exact.py:FactorTree.calculate_messages", "primo2/inference/exact.py:FactorTree.marginals", "primo2/inference/factor.py:Factor.__mul__", "primo2/inference/factor.py:Factor.__truediv__", "primo2/inference/factor.py:Factor.marginalize", "primo2/inference/factor.py:Factor.normalize"]}
{"id": "C92", "title": "Dynamic inference forgets its start, and its rounding errors do not pile up", "statement": "In a dynamic network with one transition from a source to another variable a, let no entry in the tables of the children of a change by more than the factor r when the outcome of a changes, and R = r^(number of children of a).  Take two PriorFeedbackExact objects whose networks differ in the first slice only, and enter the same evidence.  If the evidence of the second slice is possible in both, then after k+2 slices the answers to any query within a family differ, entry by entry, by at most the factor 1 + (R^2-1)(1-1/R)^k, whatever the evidence; this tends to 1.  If the priors differ by a factor K at some time, the factor after k more slices is 1 + (K-1)(1-1/R)^k.  With rounded arithmetic, if the roundings of one answer amount to a factor of at most 1+e with e(R-1) <= 1/2, then however many slices there were, an answer is off by the roundings of a single query and a factor of at most 1+2Re.  Without the bound r this fails: if a variable copies that of the slice before, nothing is ever forgotten.", "quantifier": "all dynamic networks with one transition and slices with exact trees, first slices, histories of calls with any legal evidence, numbers of slices, queries within a family, accurate arithmetics", "why_tests_cant": "Whether old errors die out or build up shows only in the limit of many slices; the tests look at a few slices and one network.", "anchors": ["primo2/inference/dynamic.py:PriorFeedbackExact._unroll", "primo2/inference/dynamic.py:PriorFeedbackExact._set_evidence", "primo2/inference/dynamic.py:DBNInferenceMethod.unroll"]}
{"id": "C93", "title": "Soft-evidence feedback forgets its start, and its rounding errors do not pile up", "statement": "The same for SoftEvidenceExact, where the posterior of the source is carried over as an array that is entered as soft evidence on a (divided by the prior of a), together with the evidence of the slice, which may contain arrays on other variables.  If the evidence of the second slice is possible in both networks, then after k+2 slices the answers of two objects whose networks differ in the first slice only differ by at most the factor 1 + (R^2-1)(1-1/R)^k; if the arrays differ by a factor K at some time, by 1 + (K-1)(1-1/R)^k after k more slices.  With rounded arithmetic an answer is off by the roundings of one slice and a factor of at most 1+2Re, however many slices there were.  If a variable copies that of the slice before, the array of the first slice is carried over for ever.", "quantifier": "all dynamic networks with one transition and slices with exact trees, first slices, histories of calls with evidence that can be met, numbers of slices, queries within a family, accurate arithmetics", "why_tests_cant": "The array is divided by a prior and multiplied into a tree in each slice; whether the errors of this die out or build up shows only in the limit of many slices.", "anchors": ["primo2/inference/dynamic.py:SoftEvidenceExact._unroll", "primo2/inference/dynamic.py:SoftEvidenceExact._set_evidence", "primo2/inference/dynamic.py:DBNInferenceMethod.unroll"]}
{"id": "C94", "title": "With several transitions a weak past is forgotten", "statement": "In a dynamic network with transitions whose sources are not targets, let no entry in the tables of the children of a target a change by more than the factor r(a) when the outcome of a changes, and R(a) = r(a)^(number of children of a).  Let blur(K) be the product over the transitions of 1 + (K-1)(1-1/R(a)) and reach the product of R(a)^2.  Take two PriorFeedbackExact objects whose networks differ in the first slice only, and enter the same evidence.  If the evidence of the second slice is possible in both, then after k+2 slices the answers to any query within a family differ, entry by entry, by at most the factor blur^k(reach)^n, where n is the number of transitions; if the priors differ by a factor K at some time, by blur^k(K)^n after k more slices.  If blur(K) < K this tends to 1 at a geometric rate.  With rounded arithmetic, if the roundings of one answer amount to a factor of at most 1+e and (1+e) blur(K) <= K, then however many slices there were, an answer is off by the roundings of a single query and a factor of at most K^n.  (Without such a condition the start need not be forgotten: C92_two_transitions_refuted.)", "quantifier": "all dynamic networks with any number of transitions and slices with exact trees, first slices, histories of calls with any legal evidence, numbers of slices, queries within a family, accurate arithmetics", "why_tests_cant": "Whether old errors die out or build up shows only in the limit of many slices, and with several transitions both can happen; the tests look at a few slices and one network.", "anchors": ["primo2/inference/dynamic.py:PriorFeedbackExact._unroll", "primo2/inference/dynamic.py:PriorFeedbackExact._set_evidence", "primo2/inference/dynamic.py:DBNInferenceMethod.unroll"]}
{"id": "C95", "title": "Soft-evidence feedback with several transitions forgets a weak past", "statement": "The same as for prior feedback with several transitions, for SoftEvidenceExact, where the posteriors of the sources are carried over as arrays that are entered as soft evidence on the targets, each divided by the prior of its target, together with the evidence of the slice.  With blur and reach as there, the answers of two objects whose networks differ in the first slice only differ, after k+2 slices with the same evidence, by at most the factor blur^k(reach)^n if the evidence of the second slice is possible in both, and by blur^k(K)^n if the arrays differ by a factor K at some time.  With rounded arithmetic, if the roundings of one slice amount to a factor of at most 1+e and (1+e) blur(K) <= K, an answer is off by the roundings of a single slice and a factor of at most K^n, however many slices there were.", "quantifier": "all dynamic networks with any number of transitions and slices with exact trees, first slices, histories of calls with evidence that can be met, numbers of slices, queries within a family, accurate arithmetics", "why_tests_cant": "Several arrays are divided by priors and multiplied into a tree in each slice; whether the errors of this die out or build up shows only in the limit of many slices.", "anchors": ["primo2/inference/dynamic.py:SoftEvidenceExact._unroll", "primo2/inference/dynamic.py:SoftEvidenceExact._set_evidence", "primo2/inference/dynamic.py:DBNInferenceMethod.unroll"]}
{"id": "C96", "title": "Several target distributions are met exactly if the variables are independent", "statement": "set_evidence({v1: q1, ..., vn: qn}, softPosteriors=True), with distributions that give nothing to outcomes impossible a priori: afterwards marginals([vi]) returns qi for every i, whatever the qi, exactly if v1, ..., vn are independent without evidence.  In that case they stay independent, and every other probability is multiplied by the quotients qi / prior (Jeffrey's rule).  For all normalised tables on a graph the targets are met exactly if no two of the variables are connected by an active trail without evidence.  Asking for the distributions the variables have already changes no answer, and asking for certainty (arrays with a single one) gives the same answers as hard evidence, independent or not.", "quantifier": "all consistent networks with non-negative tables and a positive total weight, lists of variables, target distributions, for the factor tree: connected networks with exact trees, histories of calls on the tree, set iteration orders", "why_tests_cant": "The documentation calls the arrays desired posteriors; a test with one array, or with arrays on two roots, always succeeds, and fails only for dependent variables.", "anchors": ["primo2/inference/exact.py:FactorTree.set_evidence", "primo2/inference/exact.py:FactorTree.marginals", "primo2/inference/factor.py:Factor.as_evidence"]}
{"id": "C97", "title": "Independent forward samples estimate the effect of bringing the evidence about", "statement": "Factor.from_samples([bn.get_sample(evidence) for _ in range(N)], values): with probability at least 1 - 1/(N eps^2) all entries of the table are at the same time closer than eps to the distribution of a single sample, whatever the network, the query and the size of the table.  This distribution is the one in which the tables of the observed variables are left out and the observations put in (an intervention).  The estimate converges in probability to the posterior exactly if the two distributions agree on the query; they do if the evidence is possible and with each observed variable its parents are observed, in particular without evidence.  An observed effect with unobserved causes is not taken into account: there the estimate is wrong with a probability that tends to one.", "quantifier": "all consistent acyclic networks of discrete nodes with normalised non-negative tables, hard evidence, queries, numbers of samples, all random numbers", "why_tests_cant": "A statement about probabilities and the limit of many samples; a test sees single runs, and get_sample accepts any evidence without complaint.", "anchors": ["primo2/networks.py:BayesianNetwork.get_sample", "primo2/nodes.py:DiscreteNode.sample_value", "primo2/inference/factor.py:Factor.from_samples", "primo2/inference/mcmc.py:MCMC.marginals"]}
{"id": "C98", "title": "Optimising one decision after the other climbs to a local optimum", "statement": "get_optimal_decisions for several decisions at once can return the worst of all combinations, strictly worse than every other one.  If instead the caller optimises one decision at a time and takes it before the next (for v in vs: x = vi.get_optimal_decisions([v])[v]; vi.expected_utility({v: x})), starting from legal decisions on free decision nodes, no call fails, the network always holds legal decisions, decisions that are not listed stay, and the expected utility never goes down.  If the decisions are the same after a pass, no change of a single listed decision is an improvement.  Repeating the pass reaches such decisions after fewer passes than there are combinations of decisions, and then stays there, also if there are ties and whatever the order in which sets are iterated in each call.  These decisions need not be the best combination.", "quantifier": "all consistent acyclic decision networks with non-negative tables that are normalised outside the decided nodes, legal initial decisions, lists of decision nodes without parents (with repetitions), numbers of passes, set iteration orders in each call", "why_tests_cant": "Whether repeated passes come to rest despite ties, and whether a pass can lose utility, depends on all tables; the tests optimise once, on a network with a single sensible optimum.", "anchors": ["primo2/inference/decision.py:VariableElimination.get_optimal_decisions", "primo2/inference/decision.py:VariableElimination._optimize_locally", "primo2/inference/decision.py:VariableElimination.expected_utility"]}
{"id": "C99", "title": "Optimising one decision after the other with rounded arithmetic", "statement": "The program of C98 (optimise one decision, take it, go on) run with rounded arithmetic of relative error u: no call fails, the network always holds legal decisions, decisions that are not listed stay, and each round lowers the exact expected utility by at most 2 e M, where e is the error of C82 and M a bound on the absolute values of the utilities.  If a pass over distinct nodes leaves the decisions as they are, no change of a single one gains more than 2 e M.  With exact arithmetic it is the program of C98.  Other than with exact arithmetic a round can lower the expected utility, and the passes need not come to rest: in double precision the decision can change in every pass for ever, because the order in which utilities are added is that of a set, and can differ from call to call.", "quantifier": "all consistent acyclic decision networks with non-negative tables that are normalised outside the decided nodes, legal initial decisions, lists of decision nodes without parents, arithmetics of bounded relative error, set iteration orders in each call", "why_tests_cant": "The order of a set of tuples of objects depends on memory addresses, so a test sees one of many orders, and differences in the last digit only.", "anchors": ["primo2/inference/decision.py:VariableElimination.get_optimal_decisions", "primo2/inference/decision.py:VariableElimination._optimize_locally", "primo2/inference/decision.py:VariableElimination.expected_utility", "primo2/inference/decision.py:VariableElimination.generalized_VE"]}
{"id": "C100", "title": "Fixing the most probable outcome of one variable after the other", "statement": "A program that looks for a probable instantiation of several variables by fixing one after the other (for v in vs: r = naive_marginals(bn, [v], ev); ev[v] = the first outcome x with the largest r.get_potential({v: [x]})) never fails if the evidence is possible, also with tables that contain zeros: it never fixes outcomes that contradict each other or the evidence.  Each outcome is the first most probable one given the evidence and the outcomes fixed before.  The instantiation found has at least the probability 1 / (number of all instantiations of the variables) given the evidence, and this bound is attained.  It is a most probable instantiation if the variables are independent given the evidence, for instance because no two of them are connected by an active trail; in general it need not be, even if all variables are listed, parents before children.  An instantiation with an entry above one half in naive_marginals(bn, vs, ev) is more probable than every other one.  The most probable outcomes of the single variables given the evidence only can be impossible together.", "quantifier": "all consistent networks with non-negative tables, possible legal evidence (hard and soft), lists of distinct unobserved variables with distinct outcomes, set iteration orders in each call", "why_tests_cant": "Whether the program can run into an impossible combination depends on all tables; a test sees single networks, and the maximum of single marginals, taken independently, does contradict itself on some.", "anchors": ["primo2/inference/exact.py:VariableElimination.naive_marginals", "primo2/inference/factor.py:Factor.get_potential"]}
{"id": "C101", "title": "Drawing from the posterior, one variable after the other", "statement": "A program that draws one variable after the other from exact marginals (for v in vs: r = naive_marginals(bn, [v], ev); ev[v] = an outcome drawn as in DiscreteNode.sample_value, with the numbers r.get_potential({v: [x]}) as weights) returns every instantiation of the variables with exactly its joint posterior probability given the evidence, in whatever order the variables are listed; other than get_sample(evidence) (C97) it takes the evidence on effects into account.  Whatever the random numbers, it does not fail and gives every listed variable one of its outcomes.", "quantifier": "all consistent networks with non-negative tables, legal evidence (hard and soft; possible for the first statement), lists of distinct unobserved variables with distinct outcomes, set iteration orders in each call, all random numbers", "why_tests_cant": "A statement about probabilities of whole instantiations; a test sees single draws or frequencies.", "anchors": ["primo2/inference/exact.py:VariableElimination.naive_marginals", "primo2/inference/factor.py:Factor.get_potential", "primo2/nodes.py:DiscreteNode.sample_value"]}
