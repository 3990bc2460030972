#!/usr/bin/env python3
"""Generates /verif/properties.jsonl (kept as a script so the list is easy to extend)."""
import json
F="primo2/inference/factor.py"; N="primo2/nodes.py"; W="primo2/networks.py"; O="primo2/inference/order.py"
X="primo2/inference/exact.py"; M="primo2/inference/mcmc.py"; D="primo2/inference/decision.py"; Y="primo2/inference/dynamic.py"; I="primo2/io.py"
P=[]
def p(title, statement, quantifier, why, *anchors):
    P.append(dict(id="C%02d"%(len(P)+1), title=title, statement=statement, quantifier=quantifier, why_tests_cant=why, anchors=list(anchors)))

# ---- factor algebra
p("Factor product is the pointwise product",
  "f * g never fails on well-formed factors that agree on the number of outcomes of shared variables; its scope is the union of the two scopes, f's variables first in f's order, and its entry at every joint instantiation is f's entry times g's entry, whatever the axis orders of f and g and whatever order Python iterates the set of extra variables in.",
  "all pairs of compatible factors of any arity and any axis order, all set-iteration orders (hash seeds), all joint instantiations",
  "Axis permutation, broadcasting and set-iteration order give unboundedly many combinations; a test sees one hash seed and a few shapes.",
  F+":Factor.__mul__")
p("Factor product is commutative, associative and has the trivial factor as unit, up to axis order",
  "f*g and g*f assign the same potential to every joint instantiation; so do (f*g)*h and f*(g*h); multiplying by Factor.get_trivial() changes nothing.",
  "all triples of compatible factors, all instantiations, all set-iteration orders",
  "An algebraic law over all factors; the repository's own test has it as a TODO.",
  F+":Factor.__mul__", F+":Factor.get_trivial")
p("Factor sum is the pointwise sum",
  "f + g on compatible factors succeeds, has the union scope, and its entry at every joint instantiation is the sum of the operands' entries; it is commutative and associative up to axis order.",
  "all pairs of compatible factors (including trivial ones), all set-iteration orders, all instantiations",
  "Same combinatorics as the product.",
  F+":Factor.__add__")
p("marginalize sums out exactly the given variables",
  "f.marginalize(vs) for distinct vs in f's scope succeeds; the result's scope is f's scope without vs in the same order, and its entry at every instantiation is the sum of f over all instantiations of vs; the order of vs is irrelevant; naming a variable outside the scope, or the same one twice, raises ValueError.",
  "all factors, all lists of variables, all instantiations",
  "Axis indices shift after every summation; correctness for all arities and orders needs induction.",
  F+":Factor.marginalize")
p("Variables absent from one operand can be summed inside a product",
  "If v occurs in g and not in f then (f*g).marginalize(v) and f*(g.marginalize(v)) agree at every instantiation (the law that makes variable elimination sound).",
  "all compatible f, g, all v, all instantiations",
  "A distributive law over all factors.",
  F+":Factor.__mul__", F+":Factor.marginalize")
p("Division is the entrywise quotient with 1/0 = 0, and is refused exactly when the divisor mentions a foreign variable",
  "f / g raises ValueError iff g's scope is not a subset of f's. Otherwise each entry is f's entry divided by g's entry, and 0 where g's entry is 0, so (f*g)/g = f wherever g is non-zero. The documentation of invert promises 1/0 = 0 for every factor.",
  "all compatible factors, including trivial (scope-less) ones, and all instantiations",
  "Zero patterns and scopes are unbounded; the trivial-divisor-zero case is never tested.",
  F+":Factor.__truediv__", F+":Factor.invert")
p("normalize makes a table with positive total sum to one and otherwise leaves it alone",
  "After normalize() on a factor whose entries have positive total, entries sum to 1 and all ratios are unchanged; if the total is not positive nothing changes; normalizing twice is the same as once.",
  "all factors of any shape",
  "Holds for all real tables.",
  F+":Factor.normalize")
p("get_potential returns exactly the requested sub-table",
  "get_potential({v: [values]}) raises ValueError iff some requested value of a scope variable is not an outcome; otherwise entry (i1,...,ik) of the (unsqueezed) answer is the potential of the instantiation picking the i-th requested value for each requested variable and every outcome, in order, for the others; variables outside the scope are ignored.",
  "all factors, all query dictionaries",
  "Query dictionaries and arities are unbounded.",
  F+":Factor.get_potential")
p("Factor.from_node reproduces the node's table",
  "For a node with consistent table, the factor made from it is well-formed, has scope [node]+parents, and its potential at every instantiation is the node's probability of its value given its parents' values as returned by the single-probability accessor.",
  "all consistent nodes with any number of parents, all instantiations",
  "Arity is unbounded.",
  F+":Factor.from_node", N+":DiscreteNode._get_single_probability")
p("Evidence factors",
  "as_evidence with a string is the indicator of that outcome (ValueError iff it is not an outcome); with an array it is that array as likelihood (ValueError iff its length differs from the number of outcomes); hard evidence and the corresponding one-hot array give the same factor.",
  "all variables, outcome lists and evidence",
  "All lengths and positions.",
  F+":Factor.as_evidence")
p("Soft evidence as desired posterior is met",
  "as_evidence(v, values, e, oldMarginals=m) yields a likelihood L such that m*L renormalised equals e, whenever e is a distribution whose support lies in the support of m.",
  "all outcome counts, all old marginals and target distributions",
  "A statement over all real vectors; the reference index (argmax) varies.",
  F+":Factor.as_evidence")
p("from_samples is the table of relative frequencies",
  "Factor.from_samples(samples, variableValues) on a non-empty sample list whose states only use declared outcomes has at every instantiation the number of matching samples divided by the number of samples; hence it is non-negative and sums to one.",
  "all sample lists and all variable dictionaries",
  "All sample lists.",
  F+":Factor.from_samples")
# ---- exact inference by elimination
p("naive_marginals is the exact posterior",
  "For every consistent network, every set of distinct query variables and every legal evidence (hard or soft), naive_marginals succeeds, its scope is exactly the query variables, and each entry is the sum over all instantiations of the other variables of the product of all table entries and evidence likelihoods, divided by the total of that product over all instantiations if positive.",
  "all networks of any size and structure, all queries, all evidence, all set-iteration orders",
  "The claim is about every network; tests use one five-node network.",
  X+":VariableElimination.naive_marginals")
p("bucket_marginals is the exact posterior for every elimination order",
  "Same statement for bucket_marginals with any elimination order that lists every node once, and with the default min-degree order.",
  "all networks, queries, evidence and all permutations used as elimination order",
  "n! orders per network; correctness needs a bucket-placement invariant.",
  X+":VariableElimination.bucket_marginals")
p("All exact elimination routes agree",
  "naive_marginals and bucket_marginals (any two orders) return the same potential at every instantiation of the query variables.",
  "all networks, queries, evidence, pairs of orders",
  "Follows only from an all-orders argument.",
  X+":VariableElimination")
p("Hard evidence is equivalent to a one-hot array",
  "Replacing {E: value} by {E: one-hot array} anywhere in the evidence leaves every posterior returned by naive_marginals and bucket_marginals unchanged (the documented equivalence).",
  "all networks, queries and evidence",
  "Documented for all evidence; tested nowhere.",
  X+":VariableElimination", F+":Factor.as_evidence")
p("Posteriors are probability distributions",
  "With non-negative tables and likelihoods, the result of an exact query is non-negative, and sums to 1 if the evidence has positive weight; if the evidence has weight zero the result is the all-zero table.",
  "all networks with non-negative tables, queries and evidence",
  "All networks.",
  X+":VariableElimination", F+":Factor.normalize")
p("The product of the tables of an acyclic network is a probability distribution",
  "If every node's table is a conditional distribution (each column sums to 1) and the network is acyclic then the joint product sums to 1 over all instantiations, so prior marginals need no renormalisation and the prior of a root node is its own table.",
  "all acyclic networks of any size",
  "Induction over a topological order.",
  X+":VariableElimination.naive_marginals", N+":DiscreteNode.set_cpd")
# ---- orders
p("get_min_degree_order is a min-degree elimination order",
  "The returned list contains every node exactly once; every eliminated node has minimal degree in the graph obtained from the undirected skeleton by eliminating the earlier nodes with fill-in; two remaining nodes are adjacent in that graph iff they are linked by a path through eliminated nodes.",
  "all networks of any size and edge structure",
  "Needs a loop invariant over all graphs.",
  O+":Orderer.get_min_degree_order")
p("get_random_order lists every node once",
  "The returned names are exactly the node names, each once, in every state reachable through the network API.",
  "all API histories",
  "All histories.",
  O+":Orderer.get_random_order")
# ---- join tree
p("FactorTree.marginals is the exact posterior",
  "For every consistent network and evidence, FactorTree.create_jointree(bn).set_evidence(e) followed by marginals(vs), for vs inside some clique, returns the same table as naive_marginals(bn, vs, e).",
  "all networks, all evidence, all queries contained in a clique",
  "Needs correctness of cluster construction and message passing for all graphs; tests use one loop-free-enough network.",
  X+":FactorTree.create_jointree", X+":FactorTree.set_evidence", X+":FactorTree.marginals", X+":FactorTree.calculate_messages")
p("Every table is assigned to exactly one clique",
  "For any elimination order listing every node once, each node's family is contained in some clique of create_jointree's result, and the product of the clique factors before message passing is the product of all tables; reset_factors restores exactly this.",
  "all networks and all elimination orders (with distinct clique names)",
  "All orders and graphs.",
  X+":FactorTree.create_jointree", X+":FactorTree.reset_factors")
p("create_jointree yields a junction tree",
  "The cliques containing a variable are connected in the tree, separators are the intersections, and the tree is connected, for every network and elimination order.",
  "all networks and elimination orders",
  "The running intersection property is a global graph property.",
  X+":FactorTree.create_jointree")
p("The default factor tree is exact on every connected polytree",
  "If the undirected skeleton of the network is a tree, create_jointree with the default order gives a junction tree and its marginals are exact.",
  "all connected singly-connected networks of any size, all evidence, all in-clique queries",
  "All polytrees.",
  X+":FactorTree", O+":Orderer.get_min_degree_order")
p("Message passing calibrates the tree",
  "On a junction tree, after calculate_messages every clique factor is the marginal of the product of all clique factors on the clique's variables, and the two cliques of an edge have the same marginal on the separator, which is the separator's factor; zeros never cause a division error.",
  "all junction trees with non-negative factors",
  "All trees, induction over the recursion of pull and push.",
  X+":FactorTree.calculate_messages", X+":FactorTree.pull_messages", X+":FactorTree.push_messages")
p("Evidence in a factor tree does not accumulate",
  "After any history of set_evidence, reset_factors, calculate_messages and marginals calls (successful or failed), a successful set_evidence(e) makes marginals answer for e alone.",
  "all operation histories on a factor tree",
  "All histories.",
  X+":FactorTree.set_evidence", X+":FactorTree.reset_factors")
p("FactorTree.marginals fails exactly for variables without common clique",
  "marginals(vs) raises ValueError iff no clique contains all of vs (on a junction tree); otherwise it returns a table over exactly vs and leaves the cliques unchanged.",
  "all junction trees and variable lists",
  "All trees.",
  X+":FactorTree.marginals")
p("Soft posterior evidence on one variable is met by the factor tree",
  "After set_evidence({v: e}, softPosteriors=True), marginals([v]) returns e whenever e is a distribution supported in the prior support of v.",
  "all junction trees, variables and target distributions",
  "All networks and targets.",
  X+":FactorTree.set_evidence", F+":Factor.as_evidence")
p("Factor trees answer for every component of a disconnected network",
  "For a network whose skeleton has several components, marginals of variables in any component are exact. A clique that is not connected to the first one answers from the tables and the evidence alone that it is the first clique to contain, takes no notice of evidence about variables outside it, and raises ValueError if it has to sum out a variable that occurs in none of these.",
  "all disconnected networks",
  "All graphs; only a single isolated node is tested.",
  X+":FactorTree.calculate_messages")
# ---- networks
p("Structural consistency under every API history",
  "After any sequence of add_node, remove_node, add_edge, remove_edge, change_node_values, change_node_name, clear and table updates, get_node(n).name == n, graph and lookup hold the same nodes, a node's parents list equals the graph's incoming edges, every parent entry is the network's own node object, and every table has one axis per variable of the right length.",
  "all API histories of any length",
  "All histories.",
  W+":BayesianNetwork", N+":DiscreteNode")
p("A node flagged valid has a table set for its current structure",
  "valid is True only if set_cpd succeeded after the last change of the node's values, parents or parents' values; every such change zeroes the table and clears the flag.",
  "all API histories",
  "All histories.",
  N+":DiscreteNode._update_dimensions", N+":DiscreteNode.set_cpd", W+":BayesianNetwork.change_node_values")
p("Rejected network operations change nothing",
  "add_node with a used name, add_edge or change_node_values or get_node with an unknown name, set_cpd with a wrong shape, and set_probability with unknown values raise and leave the network as it was; remove_node and remove_edge with unknown names do nothing.",
  "all reachable networks and all bad arguments",
  "All states.",
  W+":BayesianNetwork", N+":DiscreteNode.set_cpd")
p("Renaming a node changes nothing but the name",
  "change_node_name(old, new) with an unused new name keeps values, tables, valid flags, edges and every query answer up to the renaming; using a name already taken must not lose a node.",
  "all reachable networks, all nodes and names",
  "All networks.",
  W+":BayesianNetwork.change_node_name")
p("Removing a node or edge",
  "remove_node removes that node and its edges, zeroes and invalidates exactly its children's tables, and leaves every other node untouched; remove_edge does the same for one edge.",
  "all reachable networks",
  "All networks.",
  W+":BayesianNetwork.remove_node", W+":BayesianNetwork.remove_edge")
# ---- nodes
p("set_probability writes exactly the designated cells",
  "After set_probability(v, p, pv), the probability of v given any parent instantiation that extends pv is p and all other cells are unchanged; unknown parents are ignored; unknown values raise ValueError and change nothing.",
  "all nodes with any number of parents, all partial parent assignments",
  "All arities and partial assignments.",
  N+":DiscreteNode.set_probability", N+":DiscreteNode._get_single_probability")
p("get_probability and the fast path agree",
  "get_probability with all parents specified returns the same number as the single-probability accessor, and with unspecified parents returns the corresponding slice of the table.",
  "all nodes and assignments",
  "All arities.",
  N+":DiscreteNode.get_probability", N+":DiscreteNode._get_single_probability")
p("Decision rules",
  "After set_decision(d) the decision node's table is 1 at d and 0 elsewhere for every parent instantiation; fully_mixed gives every decision equal probability and every column sums to 1; a rejected set_decision must leave the rule unchanged.",
  "all decision nodes with any parents",
  "All arities.",
  N+":DecisionNode.set_decision", N+":DecisionNode.fully_mixed")
p("Utilities read back",
  "get_utility returns the last utility written by set_utility/set_utilities for that parent instantiation; partial assignments write all matching cells; missing parents raise KeyError on reading.",
  "all utility nodes and write histories",
  "All arities and histories.",
  N+":UtilityNode.set_utility", N+":UtilityNode.get_utility", N+":UtilityNode.set_utilities")
# ---- sampling
p("Roulette-wheel sampling has the right distribution",
  "sample_value always returns one of the node's values, returns outcome i for a set of random numbers of total length weight_i / sum of weights, and never returns an outcome of weight zero except when the random number is exactly 0. (If all weights are zero it returns the first outcome.)",
  "all lists of non-negative weights with a positive total, all random numbers in [0,1)",
  "A statement over a continuum of random numbers.",
  N+":DiscreteNode.sample_value")
p("The Markov-blanket weight is the full conditional up to a constant",
  "For every full state, the joint probability of the network with v set to a equals get_markov_prob(a) times a number that does not depend on a.",
  "all consistent networks, nodes, states",
  "All networks.",
  N+":DiscreteNode.get_markov_prob", W+":BayesianNetwork.get_children")
p("Gibbs steps leave the posterior invariant",
  "If the current state is distributed according to the posterior given hard evidence then so is the state after GibbsTransition.step, for single-site and full-sweep steps.",
  "all networks with non-negative tables, all evidence of positive probability",
  "A distributional claim; tests only check that values are legal.",
  M+":GibbsTransition.step")
p("Metropolis-Hastings steps satisfy detailed balance and leave the posterior invariant",
  "The single-site Metropolis-Hastings transition is reversible with respect to the posterior given the evidence, and both modes leave the posterior invariant.",
  "all networks with non-negative tables, all evidence of positive probability",
  "A distributional claim.",
  M+":MetropolisHastingsTransition.step")
p("Chains respect evidence and produce legal states",
  "Whatever the random numbers, every state yielded by generate_markov_chain gives every node one of its outcomes and every evidence variable its evidence value, and exactly numSamples states are yielded.",
  "all networks, evidence, seeds, burn-in and sample counts",
  "All random sequences.",
  M+":MarkovChainSampler.generate_markov_chain", M+":MCMC.marginals")
p("Forward sampling draws from the joint distribution",
  "get_sample({}) on an acyclic network with proper tables returns each full instantiation with probability equal to the product of its table entries; with evidence, evidence variables keep their value and every other node is sampled from its table given its parents.",
  "all acyclic networks",
  "A distributional claim over all networks.",
  W+":BayesianNetwork.get_sample")
p("MCMC.marginals returns a distribution",
  "Whatever the random numbers, MCMC.marginals with numSamples > 0 returns a table over the query variables that is non-negative and sums to 1, and puts all mass of a queried evidence variable on its evidence value.",
  "all networks, evidence and random sequences",
  "All random sequences.",
  M+":MCMC.marginals", F+":Factor.from_samples")
# ---- dynamic
p("Time and evidence bookkeeping of dynamic inference",
  "t counts the unroll calls; unroll without argument uses evidence set since the last unroll, otherwise no evidence; evidence never leaks into the next slice.",
  "all histories of set_evidence and unroll calls",
  "All histories.",
  Y+":DBNInferenceMethod.unroll", Y+":DBNInferenceMethod.set_evidence")
p("Prior feedback",
  "After PriorFeedbackExact.unroll, the prior table of every transition target in the two-slice network is the posterior marginal of its source in the slice just left; the answer in slice k is the exact posterior of the two-slice network with these priors and the evidence of slice k.",
  "all dynamic networks, all evidence histories of any length",
  "All histories.",
  Y+":PriorFeedbackExact._unroll", Y+":PriorFeedbackExact._set_evidence")
p("Soft-evidence feedback",
  "After SoftEvidenceExact.unroll with a single transition (node, node_p) and no further evidence, the marginal of node in the next slice is the posterior marginal of node_p in the slice just left.",
  "all dynamic networks and histories",
  "All histories.",
  Y+":SoftEvidenceExact")
p("Transitions are checked",
  "add_transition raises StructureError and records nothing iff node_p is missing from B_0 or from the 2-TBN or node is missing from the 2-TBN; otherwise it appends the pair.",
  "all dynamic networks and pairs",
  "All networks.",
  W+":DynamicBayesianNetwork.add_transition")
# ---- decisions
p("Generalized variable elimination is exact",
  "generalized_VE eliminating all chance and decision variables in any order returns the probability total and the probability-weighted utility total divided by it, whatever order the factor sets are iterated in.",
  "all sets of joint factors with non-negative probability parts, all elimination orders, all set-iteration orders",
  "All orders and factors.",
  D+":VariableElimination.generalized_VE")
p("expected_utility is the expected utility",
  "expected_utility(decisions) is the sum over all instantiations of the product of all tables (with the decisions' rules set) times the sum of all utilities; it fails exactly when the total probability weight is 0.",
  "all decision networks with non-negative tables, all decisions",
  "All networks.",
  D+":VariableElimination.expected_utility")
p("get_optimal_decisions is optimal",
  "The returned decisions maximise expected_utility over all combinations of decisions.",
  "all decision networks with information-free decisions, all decision orders",
  "All networks.",
  D+":VariableElimination.get_optimal_decisions", D+":VariableElimination._optimize_locally")
# ---- io
p("XMLBIF round trip",
  "Parsing a written network gives a network with the same name, nodes in the same order, outcomes, parent orders, tables and (if requested) properties.",
  "all consistent networks with non-empty names and outcomes",
  "All networks; column-major reshaping and parent reversal must cancel for every arity.",
  I+":XMLBIFParser.write", I+":XMLBIFParser.parse")
p("XMLBIF table order",
  "The written TABLE lists the probabilities with the node's own outcome varying fastest, then the GIVEN variables from last to first, as the format prescribes; parse reads it the same way.",
  "all arities",
  "All arities.",
  I+":XMLBIFParser.write", I+":XMLBIFParser.parse")
p("Dynamic network specification round trip",
  "DBNSpec.write(dbn, path, name) followed by DBNSpec.parse(path + name + '.conf') gives back the two networks and the transitions.",
  "all dynamic networks, paths and names",
  "All paths and networks.",
  I+":DBNSpec.write", I+":DBNSpec.parse")

# ---- end to end
p("Inference on a network built through the interface",
  "Whatever sequence of (non-defective) interface calls built the network, including rejected calls, removals and renames, both elimination algorithms return the posterior defined by the tables now stored.",
  "all call histories, evidence, queries and set iteration orders",
  "Quantifies over all histories of calls; tests only build networks in one straight line.",
  W+":BayesianNetwork", X+":VariableElimination")

# ---- convergence
p("The samplers converge to the posterior",
  "The law of the state after k steps of generate_markov_chain tends to the posterior given the evidence as k grows, from every legal initial state; and for every eps the probability that an entry of MCMC.marginals differs from the posterior by eps or more tends to 0 as the number of samples grows.",
  "all networks, hard evidence, transition models, modes, burn-in lengths and query variables",
  "A limit over all chain lengths, and a statement about probabilities.",
  M+":MCMC.marginals", M+":MarkovChainSampler.generate_markov_chain", M+":GibbsTransition.step", M+":MetropolisHastingsTransition.step")

p("Burn-in and the sequence of yielded states",
  "generate_markov_chain with burn-in b yields exactly the states that the same chain without burn-in yields after its first b states, for the same random numbers; the first state is one transition step away from the initial state, and the states after the m-th are those of a chain started in the m-th state.",
  "all networks, initial states, evidence, transition models, modes, burn-in lengths, numbers of samples and random numbers",
  "Compares two runs on the same random numbers, for all lengths.",
  M+":MarkovChainSampler.generate_markov_chain")

# ---- memory
p("Factors share no memory",
  "A program that creates, copies, combines, normalises and marginalises factors, reads arrays from them and assigns to elements of those arrays, of the factors' tables, variable lists and label dicts computes what it would compute if every factor and array held its own copy of everything: changing one object never changes another.",
  "all programs of factor operations, all input arrays, exceptions included",
  "Quantifies over all sequences of operations and all later in-place changes; tests look at one object right after one call.",
  F+":Factor.copy", F+":Factor.from_node", F+":Factor.normalize", F+":Factor.get_potential", F+":Factor.as_evidence", F+":Factor.__mul__")
p("Multiplication does not modify its operands",
  "__mul__ (documented: 'will not modify the two factors in any way') and __add__ leave both operands, and every other factor, unchanged, for both values of useOther.",
  "all factors in all memory states, all set iteration orders, exceptions included",
  "A frame property over all memory states.",
  F+":Factor.__mul__", F+":Factor.__add__")

# ---- requests
p("Reusing an elimination order",
  "The list given to bucket_marginals as order may be used again for any number of queries, legal or not: every legal query is answered with the posterior, and the list is the same after the call as before.",
  "all networks, all sequences of calls with the same list object, set iteration orders",
  "Quantifies over all sequences of calls sharing one mutable list.",
  X+":VariableElimination.bucket_marginals")
p("Illegal requests are refused, repeated variables do not matter",
  "naive_marginals, bucket_marginals and FactorTree.set_evidence raise if the query or the evidence names a variable or an outcome the network does not have, or an evidence array has the wrong length; repeating a variable in a query does not change the answer.",
  "all networks, evidence dicts, queries, orders, set iteration orders",
  "All malformed inputs, not a few.",
  X+":VariableElimination.naive_marginals", X+":VariableElimination.bucket_marginals", X+":FactorTree.set_evidence", F+":Factor.as_evidence")

# ---- rounding
p("Accuracy with rounded arithmetic",
  "If tables and likelihoods are non-negative and every addition, multiplication and division has a relative error of at most u (floating point without over- and underflow; sums in any order), then naive_marginals and bucket_marginals return every posterior entry with at most naiveRoundings resp. bucketRoundings roundings (explicit counts, linear in the number of nodes, observations and outcomes plus the size of the result), FactorTree with a number of roundings that does not depend on the arithmetic; k roundings mean a relative error of at most 2ku (if 2ku <= 1) and never make or remove a zero; and exactly the same exceptions are raised as with exact numbers.",
  "all accurate arithmetics, networks, evidence, queries, orders, histories of FactorTree calls",
  "Tests compare a few results to a tolerance; this bounds the error of all inputs and all orders of summation.",
  X+":VariableElimination.naive_marginals", X+":VariableElimination.bucket_marginals", X+":FactorTree.marginals", X+":FactorTree.set_evidence", F+":Factor.normalize", F+":Factor.invert", F+":Factor.as_evidence")

# ---- building decision networks
p("Decision networks built through the API are consistent",
  "After any sequence of DecisionNetwork.add_node / add_edge, table assignments and decision-making calls (exceptions caught), the decision network is consistent (distinct names, every parent is the network's own chance or decision node, tables have one axis per variable), so that expected_utility writes exactly the given decisions into the decision nodes and returns the expected utility defined by the stored tables.",
  "all call histories, node objects, decisions, iteration orders",
  "Histories and aliasing of node objects are unbounded.",
  W+":DecisionNetwork.add_node", W+":DecisionNetwork.add_edge", D+":VariableElimination.expected_utility", N+":UtilityNode.add_parent", N+":DecisionNode.add_parent")

# ---- generators
p("Programs that use the chain get its states",
  "generate_markov_chain runs nothing until the first next, then hands out the states of the chain one by one; a program that uses it (interleaving several chains, keeping, copying, reading and changing dicts) gets the same results as if every state were a dict of its own, and MCMC.marginals, which counts each state before the next is drawn, returns each table with the same probability as if it counted the finished list of states.",
  "all programs (trees of calls), networks, samplers, initial states, evidence, random numbers",
  "Programs and random numbers are unbounded; aliasing errors depend on the calling program.",
  M+":MarkovChainSampler.generate_markov_chain", M+":MCMC.marginals", M+":GibbsTransition.step", M+":MetropolisHastingsTransition.step", F+":Factor.from_samples")

# ---- inference in memory
p("Queries leave tables, evidence and earlier results alone",
  "A program that mixes factor operations, element assignments, naive_marginals, bucket_marginals, create_jointree, reset_factors, set_evidence, calculate_messages and marginals on shared node tables and soft-evidence arrays gets the same results and exceptions as if every query were a function of the tables and evidence at the time of the call and every factor tree a value of its own: queries change nothing the program can see, a method of a tree changes only that tree, assignments to node tables, evidence arrays or earlier answers never reach an existing tree, and answers stay exact under all of this.",
  "all programs, input arrays, networks, evidence, iteration orders, recursion limits, exceptions included",
  "Quantifies over all interleavings of calls and in-place changes; which buffers are shared between a tree, the network and the answers is invisible to tests that look at one call.",
  X+":VariableElimination.naive_marginals", X+":VariableElimination.bucket_marginals", X+":FactorTree.create_jointree", X+":FactorTree.set_evidence", X+":FactorTree.marginals", F+":Factor.copy", F+":Factor.from_node", F+":Factor.as_evidence")

# ---- element types
p("Element types of tables do not matter",
  "A node stores the probabilities and utilities that it is given, whatever the element type (integers, truth values, floats) of the array that was assigned before; factor operations, inference and expected utilities give the same numbers and exceptions for a table of integers or truth values as for the same numbers stored as floats.",
  "all element types, tables, sequences of node calls, programs of factor operations and queries, networks, iteration orders",
  "Tests use arrays of floats almost everywhere; silent conversion shows only for some numbers, and the sum of truth values only for some iteration orders.",
  N+":DiscreteNode.set_cpd", N+":DiscreteNode.set_probability", N+":UtilityNode.set_utilities", N+":UtilityNode.set_utility", F+":Factor.normalize", F+":Factor.__add__", X+":VariableElimination.bucket_marginals", X+":FactorTree.set_evidence", D+":VariableElimination.generalized_VE")

# ---- when the tree is exact
p("Counting edges tells whether a factor tree is exact",
  "For a connected network whose variables have at least two outcomes and any elimination order listing every node once, the tree made by create_jointree answers all queries with the posterior, for all conditional probability tables and all evidence, if and only if it has one edge less than cliques (equivalently: the cliques containing a variable are connected through cliques containing it).  Otherwise uniform tables and one hard observation give a wrong answer for some clique.  For networks in general the answers are exact for all tables and all evidence of positive probability if and only if the cliques containing a variable are connected through cliques containing it and every clique that is not connected to the first one shares no variable with another clique.",
  "all networks, elimination orders, tables, evidence, covered queries, set iteration orders, recursion limits",
  "Both directions quantify over all tables and evidence; a test suite can only find trees that are wrong for the tables it tries.",
  X+":FactorTree.create_jointree", X+":FactorTree.set_evidence", X+":FactorTree.calculate_messages", X+":FactorTree.marginals", X+":FactorTree.pull_messages", X+":FactorTree.push_messages")

# ---- node objects as keys
p("Networks do not notice that their keys can change, and do not disturb each other",
  "networkx keys its dictionaries by node objects whose hash and equality follow the current name, while a dictionary keeps the hash a key had when it was inserted.  In any history of calls (node arguments by name or by object, exceptions caught) on any number of networks that use no node object in common, no dictionary ever holds a key under an outdated hash; nodes, lookup, edges, exceptions and answers of every network are those of a network keyed by names on which only its own calls were made; so a network whose own calls are good (C30) is coherent.  (If two networks share a node object this is false: a rename or a new edge in one of them breaks the other.)",
  "all histories, hash functions (any collisions), numbers of networks, interleavings, arguments by name or object",
  "Hashes of strings are salted per process and collisions are rare, so a stale key may be found by luck; histories and interleavings are unbounded.",
  W+":BayesianNetwork.change_node_name", W+":BayesianNetwork.add_node", W+":BayesianNetwork.remove_node", W+":BayesianNetwork.remove_edge", W+":BayesianNetwork.add_edge", W+":BayesianNetwork.get_children", N+":RandomNode.__eq__", N+":RandomNode.__hash__")

# ---- unrolled dynamic networks
p("Dynamic inference filters the unrolled network",
  "Let a dynamic network be unrolled into one network over the slices 0..k, each transition target of a slice being a copy of its source in the slice before.  After any history of unroll, set_evidence and queries, marginals and marginal_probabilities of PriorFeedbackExact return the posterior of the unrolled network given the evidence of all slices; SoftEvidenceExact does so too, with arrays read as posteriors to be produced within their slice, and both methods return the same numbers for observed outcomes.",
  "all dynamic networks, histories, evidence, queries within a family, numbers of slices, namings of the unrolled nodes, set iteration orders, recursion limits",
  "The unrolled network grows with the number of slices and its joint distribution exponentially; a test compares a few slices of a few networks.",
  Y+":PriorFeedbackExact.unroll", Y+":PriorFeedbackExact.set_evidence", Y+":PriorFeedbackExact.marginals", Y+":SoftEvidenceExact.unroll", Y+":SoftEvidenceExact.set_evidence", Y+":SoftEvidenceExact.marginals")

# ---- what answers do not depend on
p("Only the query, the evidence and their ancestors matter",
  "If two networks agree on the query variables, the variables with evidence and all ancestors of these (outcomes, parents, tables), the answers of naive_marginals, bucket_marginals and exact factor trees are the same on both, however the rest of the networks differs.  In particular, in any state built by calls of the network class, removing a childless node that is neither queried nor observed changes no answer.",
  "all pairs of networks, evidence (hard and soft), queries, methods, elimination orders, set iteration orders; all histories of network calls",
  "The property relates two runs on arbitrarily different networks; a test compares a few hand-made pairs.",
  X+":VariableElimination.naive_marginals", X+":VariableElimination.bucket_marginals", X+":FactorTree.marginals", W+":BayesianNetwork.remove_node", F+":Factor.marginalize", F+":Factor.from_node")
p("Independence can be read off the graph",
  "If the evidence d-separates two sets of variables in the graph (soft evidence opens colliders but blocks nothing), the answer for both sets together is the product of the answers for each, for all normalised tables and whichever exact methods are used; further evidence on the one set does not change the answers for the other.  Parents separate a variable from its non-descendants, the Markov blanket from everything, and variables without common ancestors are independent without evidence.",
  "all acyclic networks, tables, evidence, disjoint or overlapping query sets, methods, elimination orders, set iteration orders",
  "Independence is a statement about all tables of a graph and all rows of the answers; rounding hides exact equality in tests.",
  X+":VariableElimination.naive_marginals", X+":VariableElimination.bucket_marginals", X+":FactorTree.set_evidence", X+":FactorTree.marginals", F+":Factor.as_evidence")
p("The graph implies no other independence",
  "If the evidence does not d-separate two disjoint sets of variables with at least two outcomes each, there are positive normalised tables for the same graph (and positive entries for the arrays among the evidence) with which the joint answer of the exact methods differs from the product of the single answers.  So the answers are independent for all tables exactly if the graph says so, and d-separation is symmetric.",
  "all acyclic networks, evidence (hard and soft), disjoint query sets, methods, elimination orders, set iteration orders",
  "The tables have to be found for each of infinitely many graphs and trails; random tables show dependence only for the graphs tried.",
  X+":VariableElimination.naive_marginals", X+":VariableElimination.bucket_marginals", X+":FactorTree.set_evidence", X+":FactorTree.marginals", F+":Factor.as_evidence")

# ---- how answers relate
p("Answers to different queries fit together",
  "For the exact methods, mixed freely: marginalize applied to an answer gives the answer to the smaller query; the product rule P(Q, v=x | e) = P(Q | v=x, e) P(v=x | e), Bayes' rule and the law of total probability hold between the numbers returned by separate calls, also if the evidence is impossible; entering further evidence of either kind multiplies an answer with its likelihoods and divides it by the probability of that evidence; and the order of the evidence does not matter.",
  "all networks with non-negative tables (normalised or not), evidence (hard and soft), queries, methods, elimination orders, set iteration orders",
  "The laws relate several calls with different arguments and methods; tests check single calls against fixed numbers.",
  X+":VariableElimination.naive_marginals", X+":VariableElimination.bucket_marginals", X+":FactorTree.set_evidence", X+":FactorTree.marginals", F+":Factor.marginalize", F+":Factor.as_evidence")
p("Evidence matters up to scale only",
  "Two pieces of non-negative evidence give the same answers if for every variable the likelihoods they give to its outcomes agree up to a positive factor (scaled arrays, arrays of equal numbers and no evidence, an array with one positive entry and the outcome itself, other order of the dict).  Otherwise, if the first one is not all zero for a variable, there are positive normalised tables for the same graph with which some answer about a single variable differs.",
  "all networks with non-negative tables, pairs of evidence (hard and soft), queries, methods, elimination orders, set iteration orders",
  "Quantifies over all pairs of evidence and, for the converse, over all tables of a graph.",
  X+":VariableElimination.naive_marginals", X+":VariableElimination.bucket_marginals", X+":FactorTree.set_evidence", X+":FactorTree.marginals", F+":Factor.as_evidence", F+":Factor.normalize")
p("How a model is written down does not matter",
  "If two networks differ only in the order of their nodes, of the (distinct) outcomes of variables and of the parents of nodes, with tables and soft evidence arrays arranged accordingly, the exact methods return the same number for the same outcomes; get_potential with one outcome per variable returns the same value on both answers.",
  "all pairs of networks with non-negative tables, evidence (hard and soft), queries, outcomes, methods, elimination orders, set iteration orders",
  "The number of ways to write a model down grows with factorials of nodes, outcomes and parents; axis mix-ups show only for asymmetric tables.",
  X+":VariableElimination.naive_marginals", X+":VariableElimination.bucket_marginals", X+":FactorTree.marginals", F+":Factor.from_node", F+":Factor.__mul__", F+":Factor.get_potential", F+":Factor.as_evidence")
p("Factor trees do not outgrow their cliques",
  "The cliques made by create_jointree are the maximal ones among the sets of a variable and its later moral neighbours: at most as many as nodes, each such set within one, none within another; they are complete exactly for perfect orders.  Whatever calls follow, each clique keeps its variables and its table has no others, so it never has more entries than the clique has instantiations; likewise for separators.  On polytrees the cliques of the default tree are the maximal families, so all tables of the tree have together at most as many entries as those of the network.",
  "all consistent networks with unique concatenations, elimination orders, histories of calls with any evidence and tables over the same outcomes, set iteration orders, recursion limits",
  "Invariant of all histories, including failing calls; sizes are not observable through the results that tests compare.",
  X+":FactorTree.create_jointree", X+":FactorTree.reset_factors", X+":FactorTree.set_evidence", X+":FactorTree.pull_messages", X+":FactorTree.push_messages", "primo2/inference/order.py:Orderer.get_min_degree_order")

p("Answers change little if tables and evidence change little",
  "If the entries of each table and the likelihoods of each variable change by factors within an interval, then the odds of any two outcomes of any query change by at most the product of the ratios of the interval ends, every probability by at most that factor, and the difference is at most (s-1)/(s+1) where s squared bounds the product; zeros stay zeros.  The bounds are attained for every graph.  Nothing like it holds for changes measured as differences.",
  "all consistent networks, graphs (also different ones), nonnegative tables, legal nonnegative evidence, queries, exact methods, factors",
  "Bounds over all tables and all changes of them; tests compare with fixed numbers.",
  X+":VariableElimination.naive_marginals", X+":VariableElimination.bucket_marginals", X+":FactorTree.marginals", N+":DiscreteNode.set_cpd")
p("Utilities matter up to scale and shift, and decisions are stable",
  "If the utilities are multiplied by a and shifted by b in total, expected utilities follow and, for positive a, the optimal decisions stay the same.  If they are off by at most epsilon, so are the expected utilities, and a single decision chosen with the wrong utilities is at most 2 epsilon worse than the best one, which is sharp.  If tables and rules are off by ratios with product K, then so are non-negative expected utilities, and others by at most (K-1) times the largest utility.  Changes of utilities that are not affine can change the decision although they keep the order of all outcomes.",
  "all consistent decision networks with non-negative tables, decisions, orders of free decision nodes, set iteration orders, numbers a, b, epsilon, ratios",
  "Compares the answers for all pairs of networks with similar utilities or tables; tests fix one network.",
  D+":VariableElimination.expected_utility", D+":VariableElimination.get_optimal_decisions", D+":VariableElimination._optimize_locally", N+":UtilityNode.set_utilities")

p("Soft evidence is an observed leaf",
  "An array of likelihoods for a variable gives the same answers as the observation of one more variable, a childless child of it whose table has the array, up to a positive factor, as the row of the observed outcome; this holds whatever else is known, also about the variable itself, so several such reports act like the entrywise product of their arrays.  Such a leaf can be added under any new name, by calls of the network class that succeed in every usable state; hence evidence without arrays suffices for every question.",
  "all consistent networks with non-negative tables, evidence (hard and soft), likelihoods, queries, methods, elimination orders, set iteration orders; all good histories of network calls",
  "Relates answers on two different networks for all tables and arrays; tests check few arrays against fixed numbers.",
  X+":VariableElimination.naive_marginals", X+":VariableElimination.bucket_marginals", X+":FactorTree.set_evidence", F+":Factor.as_evidence", W+":BayesianNetwork.add_node", W+":BayesianNetwork.add_edge", N+":DiscreteNode.set_cpd")

p("Sampling survives rounding and random numbers of finite precision",
  "If every operation has a relative error of at most u and random.random() returns k/N with each k < N equally likely, where u N <= 1 (for floats u = 1/N = 2^-53), then forward sampling, Gibbs sampling and Metropolis-Hastings never get None from the roulette wheel and return legal states and tables; the probability of each single change, and of each event of forward sampling, is that of the exact sampler up to a small explicit error.  If all states that agree with the evidence are possible, or with Metropolis-Hastings if the possible ones are connected, the law of the chain and the estimated marginals are those of the posterior up to terms that vanish with the number of steps or samples, and a multiple of that error, with constants that do not depend on the arithmetic.  For Gibbs sampling connected states are not enough: a random number 0 selects the first outcome even with weight 0, and the chain can be caught there for good.",
  "all consistent networks with non-negative tables, legal hard evidence, arithmetics of bounded relative error (no under- or overflow), numbers of random values, numbers of steps and samples, random numbers",
  "Rounding errors and random numbers equal to 0 are far too rare to be observed; the statements bound probabilities of whole runs.",
  N+":DiscreteNode.sample_value", N+":DiscreteNode.get_markov_prob", W+":BayesianNetwork.get_sample", M+":GibbsTransition.step", M+":MetropolisHastingsTransition.step", M+":MarkovChainSampler.generate_markov_chain", M+":MCMC.marginals", F+":Factor.from_samples")

p("Expected utilities and decisions survive rounding",
  "If every operation has a relative error of at most u, expected_utility raises what it raises with exact arithmetic, and otherwise differs from the exact expected utility by at most e = 1/(1-u)^R - 1 times the expected sum of the absolute utilities, where R is a number of roundings given by the sizes of the network; for utilities of one sign this is a relative error of e.  get_optimal_decisions returns decisions that are optimal (in the sense of C52) up to the errors of the two decisions compared, and the same ones as exact arithmetic if the margins exceed the errors; a single decision loses at most 2 e M for utilities bounded by M.  For floats e is at most (R+1) 2^-53.  The relative error is not bounded for utilities of both signs, and rounding can change the decision for a worse one.",
  "all consistent decision networks with non-negative tables, decisions, orders of free decision nodes, arithmetics of bounded relative error (no under- or overflow), set iteration orders",
  "Bounds over all networks and all ways of rounding; tests compare a few numbers up to a fixed tolerance.",
  D+":VariableElimination.generalized_VE", D+":VariableElimination.expected_utility", D+":VariableElimination.get_optimal_decisions", D+":VariableElimination._optimize_locally", N+":DecisionNode.fully_mixed")

p("The answers of a factor tree are as accurate as the size of the network says",
  "If every operation has a relative error of at most u, the answers of a factor tree on a connected network whose tree has the running intersection property are the posteriors up to a number of roundings that is a polynomial of the number of nodes, of outcomes and of observations, however the tree was used before: errors do not accumulate from one set_evidence to the next.  The same holds for queries without evidence on a new or reset tree and, with a bound that includes the accuracy of the old marginals, for posteriors entered as evidence (softPosteriors).  Zeros are exact.",
  "all networks with non-negative tables whose tree has the running intersection property, legal evidence, histories of calls (also with other networks and failing calls), queries within a clique, arithmetics of bounded relative error (no under- or overflow), set iteration orders",
  "A bound for all networks and all ways of rounding; C63 only has the existence of a bound that depends on the history.",
  X+":FactorTree.set_evidence", X+":FactorTree.reset_factors", X+":FactorTree.calculate_messages", X+":FactorTree.pull_messages", X+":FactorTree.push_messages", X+":FactorTree.marginals", F+":Factor.as_evidence")
p("Messages are exchanged completely and in order",
  "calculate_messages sends over each edge of the tree that is reached from the first clique exactly one message in each direction and no other messages, each only after its sender has received the messages of all its other neighbours; these are two messages for each clique reached, without the first one; if the network is connected and the tree has the running intersection property all cliques are reached.  The order does not depend on tables, evidence, set iteration orders or earlier calls.",
  "all networks and elimination orders (also those whose tree lacks running intersections), histories of calls, tables, arithmetics, set iteration orders, recursion limits of at least the number of nodes",
  "The order of messages is not observable through results; tests see only the final tables of small trees.",
  X+":FactorTree.calculate_messages", X+":FactorTree.pull_messages", X+":FactorTree.push_messages", X+":FactorTree.create_jointree")

p("Dynamic inference with prior feedback stays accurate over the slices",
  "If every operation has a relative error of at most u, then after any history of allowed calls of a PriorFeedbackExact object each entry of an answer is, up to an explicit number of roundings, the posterior in the network that prior feedback prescribes with exact arithmetic, although each slice starts from a prior that was itself computed with errors.  The number is computed from the sizes of the two networks, the transitions and the numbers of observations; with one transition it grows linearly with the number of slices.  All allowed calls succeed, as with exact arithmetic.",
  "all dynamic networks with non-negative tables whose two networks are connected and have trees with running intersections, all histories of set_evidence, unroll and queries with legal evidence, arithmetics of bounded relative error (no under- or overflow), set iteration orders",
  "Errors of one slice enter the next one through its prior and are divided by the probability of evidence there; that they stay small for every evidence and any number of slices is not visible in runs of a few slices.",
  Y+":PriorFeedbackExact._set_evidence", Y+":PriorFeedbackExact._unroll", Y+":PriorFeedbackExact.marginals", Y+":PriorFeedbackExact.marginal_probabilities", Y+":DBNInferenceMethod.unroll", N+":DiscreteNode.set_cpd", X+":FactorTree.set_evidence")
p("Dynamic inference with soft evidence stays accurate over the slices",
  "If every operation has a relative error of at most u, then after any history of calls of a SoftEvidenceExact object with evidence that can be met, each entry of an answer is, up to an explicit number of roundings, the posterior that C48 states for exact arithmetic: in the network of the slice, under the evidence and the exact posterior marginals of the slice left, although the arrays carried over, the old marginals by which they are divided and the trees were computed with errors.  The number is computed from the sizes of the two networks, the transitions and the variables observed; with one transition it grows linearly with the number of slices.  All such calls succeed, and whether evidence can be met is judged with exact arithmetic.",
  "all dynamic networks with non-negative tables whose two networks are connected and have trees with running intersections, all histories of set_evidence, unroll and queries with legal hard and soft evidence, arithmetics of bounded relative error (no under- or overflow), set iteration orders",
  "Errors of one slice enter the next one through a quotient of two computed marginals; that neither zeros nor errors grow out of hand for any evidence and number of slices is not visible in runs of a few slices.",
  Y+":SoftEvidenceExact._set_evidence", Y+":SoftEvidenceExact._unroll", Y+":SoftEvidenceExact.marginals", Y+":SoftEvidenceExact.marginal_probabilities", Y+":DBNInferenceMethod.unroll", X+":FactorTree.set_evidence", F+":Factor.as_evidence")

p("Variable elimination in double precision",
  "naive_marginals and bucket_marginals computed with IEEE double precision numbers, with underflow and with anything at all in place of numbers that are too large: if the numbers of the network and of the evidence that are not zero lie between 2^-a and 2^b, and (a+b) times the number of nodes and observations plus the number of roundings is at most 1021, every entry of the answer is within a relative error of 2^-42 of the posterior, and it is zero exactly when the posterior is zero.  More generally this holds for every arithmetic whose relative error is bounded for results between d and 1/d.  Without the condition on the size of the numbers it fails: there are networks and evidence for which a table of zeros is returned.",
  "all consistent networks with tables whose numbers that are not zero are neither too small nor too large, legal evidence, queries, elimination orders, set iteration orders, orders of additions, all behaviours of numbers that are too large",
  "Underflow shows only for networks of many nodes or for rare events, where the exact answer is not known to a test; the bound covers all inputs in the stated range.",
  X+":VariableElimination.naive_marginals", X+":VariableElimination.bucket_marginals", F+":Factor.__mul__", F+":Factor.marginalize", F+":Factor.normalize")
p("Bucket elimination builds the tables of the elimination graph, and no larger ones",
  "When bucket_marginals sums out a variable, its bucket is a table over exactly this variable and the variables to which it is connected, directly or through variables summed out before, in the moral graph of the network; no bucket is ever larger than at its turn, the buckets of queried variables are over queried variables only and the extra bucket is a number.  Evidence and set iteration orders do not change any of this, and querying Q adds at most Q to each table.  naive_marginals builds the table over all variables instead.  The default order keeps these tables small.",
  "all consistent networks, legal evidence, queries without repetitions, elimination orders (given or default), set iteration orders, iterations of the loop",
  "Sizes of intermediate tables are not part of any result; that they stay small, or grow exponentially, shows only as memory use on networks larger than those of the tests.",
  X+":VariableElimination.bucket_marginals", X+":VariableElimination.naive_marginals", O+":Orderer.get_min_degree_order", F+":Factor.__mul__", F+":Factor.marginalize")
p("Every network can be built through the interface",
  "For each network of chance nodes that is consistent (distinct names, parents that are other nodes of the network, tables of the right shape), whose graph agrees with the parent lists and whose variables have outcomes, constructing the nodes, adding them, adding the arcs and setting the tables raises nothing and yields exactly this network, with all tables marked valid, whatever the order in which arcs of different nodes are added and tables are set; inference then returns its posterior.  Conversely good histories lead to no other networks.  These include cyclic graphs: arcs that close a cycle are accepted.",
  "all networks of chance nodes, all orders of arcs that keep the order of each node's parents, all orders (and repetitions) of the calls that set tables",
  "Tests build a handful of networks, in one order of calls each; that no network is out of reach and that the order of calls leaves no trace is a statement about all networks and programs.",
  W+":BayesianNetwork.add_node", W+":BayesianNetwork.add_edge", N+":DiscreteNode.__init__", N+":DiscreteNode.add_parent", N+":DiscreteNode._update_dimensions", N+":DiscreteNode.set_cpd")

p("How long the samplers have to run",
  "If no table entry that agrees with the evidence is smaller than a, the distribution of the state after k steps of Gibbs or Metropolis-Hastings sampling differs from the posterior by at most (1-d)^(k/m), for every set of states and every state at the start, where m and d are computed from the network: m is 1 if every step changes all unobserved variables, else their number; d is the product over the unobserved variables of a^(1 + number of children), for Gibbs sampling times the number of outcomes, and if a step changes one variable only, times m!/m^m.  So m * ceil(log(1/h)/d) steps bring the error below h.  The estimate of MCMC.marginals from N samples is within e of the posterior in all its s entries with probability at least 1 - s(1 + 2m/d)/(N e^2), whatever the burn-in.  With rounded arithmetic the law is off by an explicit further term.  That m/d grows without limit as a tends to zero is not an artefact: there is a network of two nodes with entries of at least a in which both samplers are still in the state they started from after k steps with probability (1-a)^(2k).",
  "all consistent acyclic networks with stochastic tables, legal hard evidence for which the tables have a positive lower bound, both transition models, both modes, states at the start, numbers of steps, burn-ins, numbers of samples, queries",
  "Whether a chain has run long enough cannot be seen in its output: the test suite runs a fixed number of steps on one network and compares with a tolerance.",
  M+":GibbsTransition.step", M+":MetropolisHastingsTransition.step", M+":MarkovChainSampler.generate_markov_chain", M+":MCMC.marginals")

p("Factor trees in double precision",
  "FactorTree computed with IEEE double precision numbers, with underflow and with anything at all in place of numbers that are too large: if the numbers of the network and of the evidence that are not zero lie between 2^-a and 2^b, and (a+b) times the number of nodes and observations plus 4 per node, 1 per observation, twice the number of additions in a sum over all variables and the size of the answer is at most 1021, then after any history of calls each answer of marginals to a set of variables within one clique is within a relative error of 2^-31 of the posterior, entry by entry, and zero exactly where the posterior is zero; no call raises.  More generally this holds for every arithmetic whose relative error is bounded for results between d and 1/d.  Without the condition on the size of the numbers it fails: there are a network and evidence for which a table of zeros is returned.",
  "all connected networks whose tree has running intersections with tables whose numbers that are not zero are neither too small nor too large, legal evidence (softPosteriors=False), histories of set_evidence, reset_factors and queries on the same tree (which may involve evidence out of range), set iteration orders, orders of additions, all behaviours of numbers that are too large",
  "A message of a tree is a product of many tables, divided by another message on the way back; whether one of them underflows depends on the whole network, and underflow shows only for networks or rare events whose exact answer is not known to a test.",
  X+":FactorTree.create_jointree", X+":FactorTree.set_evidence", X+":FactorTree.reset_factors", X+":FactorTree.calculate_messages", X+":FactorTree.marginals", F+":Factor.__mul__", F+":Factor.__truediv__", F+":Factor.marginalize", F+":Factor.normalize")

p("Dynamic inference forgets its start, and its rounding errors do not pile up",
  "In a dynamic network with one transition from a source to another variable a, let no entry in the tables of the children of a change by more than the factor r when the outcome of a changes, and R = r^(number of children of a).  Take two PriorFeedbackExact objects whose networks differ in the first slice only, and enter the same evidence.  If the evidence of the second slice is possible in both, then after k+2 slices the answers to any query within a family differ, entry by entry, by at most the factor 1 + (R^2-1)(1-1/R)^k, whatever the evidence; this tends to 1.  If the priors differ by a factor K at some time, the factor after k more slices is 1 + (K-1)(1-1/R)^k.  With rounded arithmetic, if the roundings of one answer amount to a factor of at most 1+e with e(R-1) <= 1/2, then however many slices there were, an answer is off by the roundings of a single query and a factor of at most 1+2Re.  Without the bound r this fails: if a variable copies that of the slice before, nothing is ever forgotten.",
  "all dynamic networks with one transition and slices with exact trees, first slices, histories of calls with any legal evidence, numbers of slices, queries within a family, accurate arithmetics",
  "Whether old errors die out or build up shows only in the limit of many slices; the tests look at a few slices and one network.",
  Y+":PriorFeedbackExact._unroll", Y+":PriorFeedbackExact._set_evidence", Y+":DBNInferenceMethod.unroll")

p("Soft-evidence feedback forgets its start, and its rounding errors do not pile up",
  "The same for SoftEvidenceExact, where the posterior of the source is carried over as an array that is entered as soft evidence on a (divided by the prior of a), together with the evidence of the slice, which may contain arrays on other variables.  If the evidence of the second slice is possible in both networks, then after k+2 slices the answers of two objects whose networks differ in the first slice only differ by at most the factor 1 + (R^2-1)(1-1/R)^k; if the arrays differ by a factor K at some time, by 1 + (K-1)(1-1/R)^k after k more slices.  With rounded arithmetic an answer is off by the roundings of one slice and a factor of at most 1+2Re, however many slices there were.  If a variable copies that of the slice before, the array of the first slice is carried over for ever.",
  "all dynamic networks with one transition and slices with exact trees, first slices, histories of calls with evidence that can be met, numbers of slices, queries within a family, accurate arithmetics",
  "The array is divided by a prior and multiplied into a tree in each slice; whether the errors of this die out or build up shows only in the limit of many slices.",
  Y+":SoftEvidenceExact._unroll", Y+":SoftEvidenceExact._set_evidence", Y+":DBNInferenceMethod.unroll")

p("With several transitions a weak past is forgotten",
  "In a dynamic network with transitions whose sources are not targets, let no entry in the tables of the children of a target a change by more than the factor r(a) when the outcome of a changes, and R(a) = r(a)^(number of children of a).  Let blur(K) be the product over the transitions of 1 + (K-1)(1-1/R(a)) and reach the product of R(a)^2.  Take two PriorFeedbackExact objects whose networks differ in the first slice only, and enter the same evidence.  If the evidence of the second slice is possible in both, then after k+2 slices the answers to any query within a family differ, entry by entry, by at most the factor blur^k(reach)^n, where n is the number of transitions; if the priors differ by a factor K at some time, by blur^k(K)^n after k more slices.  If blur(K) < K this tends to 1 at a geometric rate.  With rounded arithmetic, if the roundings of one answer amount to a factor of at most 1+e and (1+e) blur(K) <= K, then however many slices there were, an answer is off by the roundings of a single query and a factor of at most K^n.  (Without such a condition the start need not be forgotten: C92_two_transitions_refuted.)",
  "all dynamic networks with any number of transitions and slices with exact trees, first slices, histories of calls with any legal evidence, numbers of slices, queries within a family, accurate arithmetics",
  "Whether old errors die out or build up shows only in the limit of many slices, and with several transitions both can happen; the tests look at a few slices and one network.",
  Y+":PriorFeedbackExact._unroll", Y+":PriorFeedbackExact._set_evidence", Y+":DBNInferenceMethod.unroll")

p("Soft-evidence feedback with several transitions forgets a weak past",
  "The same as for prior feedback with several transitions, for SoftEvidenceExact, where the posteriors of the sources are carried over as arrays that are entered as soft evidence on the targets, each divided by the prior of its target, together with the evidence of the slice.  With blur and reach as there, the answers of two objects whose networks differ in the first slice only differ, after k+2 slices with the same evidence, by at most the factor blur^k(reach)^n if the evidence of the second slice is possible in both, and by blur^k(K)^n if the arrays differ by a factor K at some time.  With rounded arithmetic, if the roundings of one slice amount to a factor of at most 1+e and (1+e) blur(K) <= K, an answer is off by the roundings of a single slice and a factor of at most K^n, however many slices there were.",
  "all dynamic networks with any number of transitions and slices with exact trees, first slices, histories of calls with evidence that can be met, numbers of slices, queries within a family, accurate arithmetics",
  "Several arrays are divided by priors and multiplied into a tree in each slice; whether the errors of this die out or build up shows only in the limit of many slices.",
  Y+":SoftEvidenceExact._unroll", Y+":SoftEvidenceExact._set_evidence", Y+":DBNInferenceMethod.unroll")

p("Several target distributions are met exactly if the variables are independent",
  "set_evidence({v1: q1, ..., vn: qn}, softPosteriors=True), with distributions that give nothing to outcomes impossible a priori: afterwards marginals([vi]) returns qi for every i, whatever the qi, exactly if v1, ..., vn are independent without evidence.  In that case they stay independent, and every other probability is multiplied by the quotients qi / prior (Jeffrey's rule).  For all normalised tables on a graph the targets are met exactly if no two of the variables are connected by an active trail without evidence.  Asking for the distributions the variables have already changes no answer, and asking for certainty (arrays with a single one) gives the same answers as hard evidence, independent or not.",
  "all consistent networks with non-negative tables and a positive total weight, lists of variables, target distributions, for the factor tree: connected networks with exact trees, histories of calls on the tree, set iteration orders",
  "The documentation calls the arrays desired posteriors; a test with one array, or with arrays on two roots, always succeeds, and fails only for dependent variables.",
  X+":FactorTree.set_evidence", X+":FactorTree.marginals", F+":Factor.as_evidence")

p("Independent forward samples estimate the effect of bringing the evidence about",
  "Factor.from_samples([bn.get_sample(evidence) for _ in range(N)], values): with probability at least 1 - 1/(N eps^2) all entries of the table are at the same time closer than eps to the distribution of a single sample, whatever the network, the query and the size of the table.  This distribution is the one in which the tables of the observed variables are left out and the observations put in (an intervention).  The estimate converges in probability to the posterior exactly if the two distributions agree on the query; they do if the evidence is possible and with each observed variable its parents are observed, in particular without evidence.  An observed effect with unobserved causes is not taken into account: there the estimate is wrong with a probability that tends to one.",
  "all consistent acyclic networks of discrete nodes with normalised non-negative tables, hard evidence, queries, numbers of samples, all random numbers",
  "A statement about probabilities and the limit of many samples; a test sees single runs, and get_sample accepts any evidence without complaint.",
  W+":BayesianNetwork.get_sample", N+":DiscreteNode.sample_value", F+":Factor.from_samples", M+":MCMC.marginals")

p("Optimising one decision after the other climbs to a local optimum",
  "get_optimal_decisions for several decisions at once can return the worst of all combinations, strictly worse than every other one.  If instead the caller optimises one decision at a time and takes it before the next (for v in vs: x = vi.get_optimal_decisions([v])[v]; vi.expected_utility({v: x})), starting from legal decisions on free decision nodes, no call fails, the network always holds legal decisions, decisions that are not listed stay, and the expected utility never goes down.  If the decisions are the same after a pass, no change of a single listed decision is an improvement.  Repeating the pass reaches such decisions after fewer passes than there are combinations of decisions, and then stays there, also if there are ties and whatever the order in which sets are iterated in each call.  These decisions need not be the best combination.",
  "all consistent acyclic decision networks with non-negative tables that are normalised outside the decided nodes, legal initial decisions, lists of decision nodes without parents (with repetitions), numbers of passes, set iteration orders in each call",
  "Whether repeated passes come to rest despite ties, and whether a pass can lose utility, depends on all tables; the tests optimise once, on a network with a single sensible optimum.",
  D+":VariableElimination.get_optimal_decisions", D+":VariableElimination._optimize_locally", D+":VariableElimination.expected_utility")

p("Optimising one decision after the other with rounded arithmetic",
  "The program of C98 (optimise one decision, take it, go on) run with rounded arithmetic of relative error u: no call fails, the network always holds legal decisions, decisions that are not listed stay, and each round lowers the exact expected utility by at most 2 e M, where e is the error of C82 and M a bound on the absolute values of the utilities.  If a pass over distinct nodes leaves the decisions as they are, no change of a single one gains more than 2 e M.  With exact arithmetic it is the program of C98.  Other than with exact arithmetic a round can lower the expected utility, and the passes need not come to rest: in double precision the decision can change in every pass for ever, because the order in which utilities are added is that of a set, and can differ from call to call.",
  "all consistent acyclic decision networks with non-negative tables that are normalised outside the decided nodes, legal initial decisions, lists of decision nodes without parents, arithmetics of bounded relative error, set iteration orders in each call",
  "The order of a set of tuples of objects depends on memory addresses, so a test sees one of many orders, and differences in the last digit only.",
  D+":VariableElimination.get_optimal_decisions", D+":VariableElimination._optimize_locally", D+":VariableElimination.expected_utility", D+":VariableElimination.generalized_VE")

p("Fixing the most probable outcome of one variable after the other",
  "A program that looks for a probable instantiation of several variables by fixing one after the other (for v in vs: r = naive_marginals(bn, [v], ev); ev[v] = the first outcome x with the largest r.get_potential({v: [x]})) never fails if the evidence is possible, also with tables that contain zeros: it never fixes outcomes that contradict each other or the evidence.  Each outcome is the first most probable one given the evidence and the outcomes fixed before.  The instantiation found has at least the probability 1 / (number of all instantiations of the variables) given the evidence, and this bound is attained.  It is a most probable instantiation if the variables are independent given the evidence, for instance because no two of them are connected by an active trail; in general it need not be, even if all variables are listed, parents before children.  An instantiation with an entry above one half in naive_marginals(bn, vs, ev) is more probable than every other one.  The most probable outcomes of the single variables given the evidence only can be impossible together.",
  "all consistent networks with non-negative tables, possible legal evidence (hard and soft), lists of distinct unobserved variables with distinct outcomes, set iteration orders in each call",
  "Whether the program can run into an impossible combination depends on all tables; a test sees single networks, and the maximum of single marginals, taken independently, does contradict itself on some.",
  X+":VariableElimination.naive_marginals", F+":Factor.get_potential")

p("Drawing from the posterior, one variable after the other",
  "A program that draws one variable after the other from exact marginals (for v in vs: r = naive_marginals(bn, [v], ev); ev[v] = an outcome drawn as in DiscreteNode.sample_value, with the numbers r.get_potential({v: [x]}) as weights) returns every instantiation of the variables with exactly its joint posterior probability given the evidence, in whatever order the variables are listed; other than get_sample(evidence) (C97) it takes the evidence on effects into account.  Whatever the random numbers, it does not fail and gives every listed variable one of its outcomes.",
  "all consistent networks with non-negative tables, legal evidence (hard and soft; possible for the first statement), lists of distinct unobserved variables with distinct outcomes, set iteration orders in each call, all random numbers",
  "A statement about probabilities of whole instantiations; a test sees single draws or frequencies.",
  X+":VariableElimination.naive_marginals", F+":Factor.get_potential", N+":DiscreteNode.sample_value")

if __name__ == "__main__":
    with open("/verif/properties.jsonl","w") as f:
        for x in P: f.write(json.dumps(x)+"\n")
    print(len(P))
