{"id": "C01", "title": "Log-likelihood agrees with the mixture/product formula", "statement": "For every circuit and every full-evidence point, exp(log_likelihood(x)) equals the number obtained by evaluating the circuit bottom-up in linear space: leaf densities, weighted sums with exp(log weight) at sum units and products at product units. In particular the log-likelihood is -inf exactly when that number is 0.", "quantifier": "all layered circuits (any number of units, any sharing), all real log weights including -inf, all points", "why_tests_cant": "There are infinitely many circuits, weights and points; a test compares a handful of hand-computed numbers.", "anchors": ["src/probabilistic_model/probabilistic_circuit/nx/probabilistic_circuit.py::ProbabilisticCircuit.log_likelihood", "src/probabilistic_model/probabilistic_circuit/nx/probabilistic_circuit.py::SumUnit.log_forward", "src/probabilistic_model/probabilistic_circuit/nx/probabilistic_circuit.py::ProductUnit.log_forward", "src/probabilistic_model/probabilistic_model.py::ProbabilisticModel.likelihood"]}
{"id": "C02", "title": "Every query pass reads only finished results", "statement": "Whatever the shape of the (acyclic, single-root) circuit, log_likelihood, probability_of_simple_event, cdf, support, log_mode and moment return the recursively defined value at the root.", "quantifier": "all acyclic single-root circuits, including ones whose units are reachable along paths of different lengths", "why_tests_cant": "Depends on the graph shape: a unit reachable by a short and a long path is only hit by particular circuits.", "anchors": ["src/probabilistic_model/probabilistic_circuit/nx/probabilistic_circuit.py::ProbabilisticCircuit.layers", "src/probabilistic_model/probabilistic_circuit/nx/probabilistic_circuit.py::ProbabilisticCircuit.log_likelihood", "src/probabilistic_model/probabilistic_circuit/nx/probabilistic_circuit.py::ProbabilisticCircuit.probability_of_simple_event"]}
{"id": "C03", "title": "Query results do not depend on earlier queries", "statement": "For every finite history of earlier queries on the same circuit object, the result of a query is the same as on a freshly built circuit (units keep the result of the last query as mutable state).", "quantifier": "all layered circuits and all finite histories of queries of any kind", "why_tests_cant": "Histories are unbounded sequences; tests call queries in one fixed order.", "anchors": ["src/probabilistic_model/probabilistic_circuit/nx/probabilistic_circuit.py::Unit.result_of_current_query", "src/probabilistic_model/probabilistic_circuit/nx/probabilistic_circuit.py::ProbabilisticCircuit.log_likelihood", "src/probabilistic_model/probabilistic_circuit/nx/probabilistic_circuit.py::ProbabilisticCircuit.probability_of_simple_event"]}
{"id": "C04", "title": "Probability is the integral of the likelihood", "statement": "For every smooth, decomposable circuit with uniform, integer and symbolic leaves and every simple event, probability(event) equals the integral (sum for discrete variables) of the likelihood over the event.", "quantifier": "all smooth decomposable circuits, all simple events", "why_tests_cant": "Requires integration over a continuum for unboundedly many circuits and events.", "anchors": ["src/probabilistic_model/probabilistic_circuit/nx/probabilistic_circuit.py::ProbabilisticCircuit.probability_of_simple_event", "src/probabilistic_model/probabilistic_circuit/nx/probabilistic_circuit.py::SumUnit.forward", "src/probabilistic_model/probabilistic_circuit/nx/probabilistic_circuit.py::ProductUnit.forward", "src/probabilistic_model/distributions/uniform.py::UniformDistribution.cdf", "src/probabilistic_model/distributions/distributions.py::ContinuousDistribution.probability_of_simple_event"]}
{"id": "C05", "title": "Probabilities lie in [0,1], the universal event has probability 1, the impossible one 0, and larger events are at least as probable", "statement": "For every normalized circuit: 0 <= probability(E) <= 1, probability(universal event) = 1, probability(empty event) = 0 and E contained in F implies probability(E) <= probability(F).", "quantifier": "all circuits with normalized sum units and normalized leaves, all simple events", "why_tests_cant": "A statement about all events of all circuits.", "anchors": ["src/probabilistic_model/probabilistic_model.py::ProbabilisticModel.probability", "src/probabilistic_model/probabilistic_model.py::ProbabilisticModel.universal_simple_event", "src/probabilistic_model/probabilistic_circuit/nx/probabilistic_circuit.py::ProbabilisticCircuit.probability_of_simple_event"]}
{"id": "C06", "title": "Probability does not depend on how an event is cut into simple events", "statement": "If two finite families of pairwise disjoint simple events describe the same set of points, probability returns the same number for both; it is the sum over the parts.", "quantifier": "all smooth decomposable circuits, all finite disjoint decompositions of an event, in any order", "why_tests_cant": "Decompositions are unbounded and chosen by the caller.", "anchors": ["src/probabilistic_model/probabilistic_model.py::ProbabilisticModel.probability"]}
{"id": "C07", "title": "conditional returns the probability of the event, and None exactly for impossible events", "statement": "For every circuit and event with non-degenerate leaf intersections, the second component of conditional(E) equals probability(E), and the first component is None if and only if that probability is 0.", "quantifier": "all layered circuits, all simple events and all finite disjoint unions of them", "why_tests_cant": "Ranges over all circuits and events, including those where some branches become impossible.", "anchors": ["src/probabilistic_model/probabilistic_circuit/nx/probabilistic_circuit.py::ProbabilisticCircuit.log_conditional_in_place", "src/probabilistic_model/probabilistic_circuit/nx/probabilistic_circuit.py::ProbabilisticCircuit.log_conditional_of_simple_event_in_place", "src/probabilistic_model/probabilistic_model.py::ProbabilisticModel.conditional", "src/probabilistic_model/probabilistic_circuit/nx/distributions/distributions.py::UnivariateContinuousLeaf.univariate_log_conditional_of_simple_event_in_place"]}
{"id": "C08", "title": "conditional returns the Bayes conditional distribution", "statement": "For every circuit, event E with positive probability and event F, the circuit returned by conditional(E) assigns F the probability P(F and E) / P(E).", "quantifier": "all circuits, all events E with P(E) > 0, all events F", "why_tests_cant": "Needs every circuit/event pair: the error, if any, depends on how the event's mass is spread over the branches of nested sum units, which a finite list of events does not exhaust.", "anchors": ["src/probabilistic_model/probabilistic_circuit/nx/probabilistic_circuit.py::ProbabilisticCircuit.log_conditional_of_simple_event_in_place", "src/probabilistic_model/probabilistic_circuit/nx/probabilistic_circuit.py::ProbabilisticCircuit.log_conditional_in_place", "src/probabilistic_model/probabilistic_circuit/nx/distributions/distributions.py::UnivariateContinuousLeaf.univariate_log_conditional_of_simple_event_in_place"]}
{"id": "C09", "title": "Queries that return a new circuit leave the original untouched", "statement": "conditional, log_conditional and marginal never change the units, edges, weights or distributions of the circuit they are called on, for every history of such calls; mutating a copied circuit through its API does not change the original.", "quantifier": "all circuits, all finite sequences of conditional/marginal/copy operations followed by in-place edits of the result", "why_tests_cant": "Aliasing bugs show only for particular call sequences on shared objects.", "anchors": ["src/probabilistic_model/probabilistic_circuit/nx/probabilistic_circuit.py::ProbabilisticCircuit.__copy__", "src/probabilistic_model/probabilistic_circuit/nx/probabilistic_circuit.py::ProbabilisticCircuit.log_conditional", "src/probabilistic_model/probabilistic_circuit/nx/probabilistic_circuit.py::ProbabilisticCircuit.marginal", "src/probabilistic_model/probabilistic_circuit/nx/probabilistic_circuit.py::LeafUnit.__copy__", "src/probabilistic_model/distributions/distributions.py::DiscreteDistribution.__copy__"]}
{"id": "C10", "title": "marginal keeps exactly the joint law of the kept variables", "statement": "For every circuit and set of variables, marginal(variables) is None iff no variable of the circuit is kept; otherwise the probability it assigns to any event over the kept variables equals the probability the original assigns to it.", "quantifier": "all smooth decomposable normalized circuits, all sets of variables, all events over them", "why_tests_cant": "Ranges over all circuits, including those where product units collapse and subcircuits are shared.", "anchors": ["src/probabilistic_model/probabilistic_circuit/nx/probabilistic_circuit.py::ProbabilisticCircuit.marginal_in_place", "src/probabilistic_model/probabilistic_circuit/nx/probabilistic_circuit.py::LeafUnit.marginal", "src/probabilistic_model/probabilistic_circuit/nx/probabilistic_circuit.py::InnerUnit.marginal", "src/probabilistic_model/probabilistic_circuit/nx/probabilistic_circuit.py::SumUnit.simplify", "src/probabilistic_model/probabilistic_circuit/nx/probabilistic_circuit.py::ProductUnit.simplify"]}
{"id": "C11", "title": "simplify does not change the distribution", "statement": "For every circuit with normalized sum units, the likelihood of every point and the probability of every event are the same before and after simplify.", "quantifier": "all normalized circuits and all points/events", "why_tests_cant": "The rewriting is in-place on a DAG; whether it is safe depends on which units are shared.", "anchors": ["src/probabilistic_model/probabilistic_circuit/nx/probabilistic_circuit.py::ProbabilisticCircuit.simplify", "src/probabilistic_model/probabilistic_circuit/nx/probabilistic_circuit.py::SumUnit.simplify", "src/probabilistic_model/probabilistic_circuit/nx/probabilistic_circuit.py::ProductUnit.simplify"]}
{"id": "C12", "title": "normalize makes weights a distribution and keeps their ratios", "statement": "After normalize the exponentiated weights of each sum unit with at least one finite weight sum to 1, the quotient of any two weights is unchanged, and normalizing again changes nothing.", "quantifier": "all sum units with at least one weight > -inf, any number of children", "why_tests_cant": "All weight vectors of all lengths.", "anchors": ["src/probabilistic_model/probabilistic_circuit/nx/probabilistic_circuit.py::SumUnit.normalize", "src/probabilistic_model/probabilistic_circuit/nx/probabilistic_circuit.py::ProbabilisticCircuit.normalize"]}
{"id": "C13", "title": "support contains every possible point", "statement": "Every point with positive likelihood lies in support; if all log weights are finite, every point of the support has positive likelihood.", "quantifier": "all layered circuits, all points", "why_tests_cant": "All points of all circuits.", "anchors": ["src/probabilistic_model/probabilistic_circuit/nx/probabilistic_circuit.py::ProbabilisticCircuit.support", "src/probabilistic_model/probabilistic_circuit/nx/probabilistic_circuit.py::SumUnit.support", "src/probabilistic_model/probabilistic_circuit/nx/probabilistic_circuit.py::ProductUnit.support"]}
{"id": "C14", "title": "is_deterministic is exact", "statement": "is_deterministic returns True iff for every sum unit the supports of its children are pairwise disjoint; then at every point at most one child of each sum unit has positive likelihood.", "quantifier": "all layered circuits, all points", "why_tests_cant": "All points of all circuits.", "anchors": ["src/probabilistic_model/probabilistic_circuit/nx/probabilistic_circuit.py::ProbabilisticCircuit.is_deterministic", "src/probabilistic_model/probabilistic_circuit/nx/probabilistic_circuit.py::SumUnit.is_deterministic"]}
{"id": "C15", "title": "mode returns the maximum of the likelihood and all maximisers", "statement": "For every deterministic circuit, mode returns the maximum over all points of the likelihood together with exactly the set of points attaining it; for a non-deterministic circuit it raises IntractableError.", "quantifier": "all decomposable smooth circuits, all points", "why_tests_cant": "A maximum over a continuum of points.", "anchors": ["src/probabilistic_model/probabilistic_circuit/nx/probabilistic_circuit.py::ProbabilisticCircuit.log_mode", "src/probabilistic_model/probabilistic_circuit/nx/probabilistic_circuit.py::SumUnit.log_mode", "src/probabilistic_model/probabilistic_circuit/nx/probabilistic_circuit.py::ProductUnit.log_mode", "src/probabilistic_model/probabilistic_model.py::ProbabilisticModel.mode"]}
{"id": "C16", "title": "moment is the expectation of (x - center)^order", "statement": "For every normalized smooth decomposable circuit, variable v, order k and center c, moment returns for v the integral of (x_v - c)^k against the circuit's law.", "quantifier": "all normalized smooth decomposable circuits with uniform and integer leaves, all orders and centers", "why_tests_cant": "Unbounded orders, centers and circuits.", "anchors": ["src/probabilistic_model/probabilistic_circuit/nx/probabilistic_circuit.py::ProbabilisticCircuit.moment", "src/probabilistic_model/probabilistic_circuit/nx/probabilistic_circuit.py::LeafUnit.moment", "src/probabilistic_model/probabilistic_circuit/nx/probabilistic_circuit.py::SumUnit.forward", "src/probabilistic_model/probabilistic_circuit/nx/probabilistic_circuit.py::ProductUnit.moment", "src/probabilistic_model/distributions/uniform.py::UniformDistribution.moment", "src/probabilistic_model/distributions/distributions.py::IntegerDistribution.moment", "src/probabilistic_model/distributions/distributions.py::DiracDeltaDistribution.moment"]}
{"id": "C17", "title": "variance is non-negative and equals E[x^2] - E[x]^2", "statement": "For every normalized circuit the variance returned for a variable is >= 0 and equals the second raw moment minus the squared expectation.", "quantifier": "all normalized circuits, all numeric variables", "why_tests_cant": "Universal over circuits and leaf parameters.", "anchors": ["src/probabilistic_model/probabilistic_model.py::ProbabilisticModel.variance", "src/probabilistic_model/probabilistic_model.py::ProbabilisticModel.expectation", "src/probabilistic_model/distributions/distributions.py::DiracDeltaDistribution.moment"]}
{"id": "C18", "title": "sample fills every cell of the sample array exactly once", "statement": "For every circuit, amount and every outcome of the random choices, sample(amount) returns amount rows in which every cell (row, variable) was written exactly once, by a leaf over that variable, and every row has positive likelihood whenever leaf samples lie in the leaf's support.", "quantifier": "all layered smooth decomposable circuits, all amounts, all outcomes of the multinomial draws and shuffles", "why_tests_cant": "Random outcomes are unbounded; overlapping or missing index ranges appear only for particular draws.", "anchors": ["src/probabilistic_model/probabilistic_circuit/nx/probabilistic_circuit.py::ProbabilisticCircuit.sample", "src/probabilistic_model/probabilistic_circuit/nx/probabilistic_circuit.py::SumUnit.sample", "src/probabilistic_model/probabilistic_circuit/nx/probabilistic_circuit.py::ProductUnit.sample", "src/probabilistic_model/probabilistic_circuit/nx/probabilistic_circuit.py::LeafUnit.sample"]}
{"id": "C19", "title": "JSON round trip restores the circuit", "statement": "from_json(to_json(c)) has the same units, edges, weights and leaf distributions as c up to renaming of unit identities, hence answers every query identically.", "quantifier": "all circuits (any graph), all weights", "why_tests_cant": "Every graph shape and every weight pattern.", "anchors": ["src/probabilistic_model/probabilistic_circuit/nx/probabilistic_circuit.py::ProbabilisticCircuit.to_json", "src/probabilistic_model/probabilistic_circuit/nx/probabilistic_circuit.py::ProbabilisticCircuit._from_json", "src/probabilistic_model/probabilistic_circuit/nx/probabilistic_circuit.py::ProbabilisticCircuit.unweighted_edges", "src/probabilistic_model/probabilistic_circuit/nx/probabilistic_circuit.py::ProbabilisticCircuit.log_weighted_edges"]}
{"id": "C20", "title": "A copied circuit answers every query like the original", "statement": "__copy__ yields a circuit isomorphic to the original (same unit kinds, child order, weights and leaf parameters).", "quantifier": "all circuits", "why_tests_cant": "Every graph shape.", "anchors": ["src/probabilistic_model/probabilistic_circuit/nx/probabilistic_circuit.py::ProbabilisticCircuit.__copy__", "src/probabilistic_model/probabilistic_circuit/nx/probabilistic_circuit.py::ProbabilisticCircuit.unweighted_edges", "src/probabilistic_model/probabilistic_circuit/nx/probabilistic_circuit.py::ProbabilisticCircuit.log_weighted_edges"]}
{"id": "C21", "title": "root is the unique parentless unit or an error", "statement": "root returns the only unit without incoming edges; with several such units it raises ValueError and with none IndexError; in every finite acyclic non-empty circuit at least one exists.", "quantifier": "all finite directed graphs", "why_tests_cant": "All graphs.", "anchors": ["src/probabilistic_model/probabilistic_circuit/nx/probabilistic_circuit.py::ProbabilisticCircuit.root"]}
{"id": "C22", "title": "is_decomposable detects overlapping product scopes", "statement": "is_decomposable returns False whenever some product unit has two children that share a variable.", "quantifier": "all circuits", "why_tests_cant": "All circuits.", "anchors": ["src/probabilistic_model/probabilistic_circuit/nx/probabilistic_circuit.py::ProbabilisticCircuit.is_decomposable", "src/probabilistic_model/probabilistic_circuit/nx/probabilistic_circuit.py::ProductUnit.is_decomposable"]}
{"id": "C23", "title": "translate moves the distribution", "statement": "After translate(t) the likelihood at x + t equals the old likelihood at x, for every point x and every circuit.", "quantifier": "all circuits, all translations, all points", "why_tests_cant": "Universal over circuits, points and vectors; also single-leaf circuits.", "anchors": ["src/probabilistic_model/probabilistic_circuit/nx/probabilistic_circuit.py::ProbabilisticCircuit.translate", "src/probabilistic_model/probabilistic_circuit/nx/probabilistic_circuit.py::LeafUnit.leaves", "src/probabilistic_model/distributions/distributions.py::ContinuousDistributionWithFiniteSupport.translate", "src/probabilistic_model/distributions/distributions.py::IntegerDistribution.translate", "src/probabilistic_model/distributions/distributions.py::DiracDeltaDistribution.translate"]}
{"id": "C24", "title": "scale stretches the distribution", "statement": "After scale(s) with non-zero s the probability of the scaled event equals the old probability of the event, for every leaf type.", "quantifier": "all leaf distributions, all non-zero factors, all events", "why_tests_cant": "Universal over factors (including negative ones) and leaf types.", "anchors": ["src/probabilistic_model/distributions/distributions.py::ContinuousDistributionWithFiniteSupport.scale", "src/probabilistic_model/distributions/distributions.py::IntegerDistribution.scale", "src/probabilistic_model/distributions/distributions.py::DiracDeltaDistribution.scale"]}
{"id": "C25", "title": "A discrete leaf and its deterministic sum describe the same law", "statement": "as_deterministic_sum yields a deterministic sum unit with the same likelihood everywhere, and from_mixture of it gives back the same probabilities.", "quantifier": "all discrete distributions", "why_tests_cant": "All probability dictionaries.", "anchors": ["src/probabilistic_model/probabilistic_circuit/nx/distributions/distributions.py::UnivariateDiscreteLeaf.as_deterministic_sum", "src/probabilistic_model/probabilistic_circuit/nx/distributions/distributions.py::UnivariateDiscreteLeaf.from_mixture"]}
{"id": "C26", "title": "Adding a subcircuit never changes other units' values", "statement": "mount and add_subcircuit leave the value of every unit that is not an ancestor of the extended unit unchanged, and add the weighted new child to the extended one.", "quantifier": "all circuits and all mounted subcircuits", "why_tests_cant": "All graph shapes, including shared units.", "anchors": ["src/probabilistic_model/probabilistic_circuit/nx/probabilistic_circuit.py::Unit.mount", "src/probabilistic_model/probabilistic_circuit/nx/probabilistic_circuit.py::SumUnit.add_subcircuit", "src/probabilistic_model/probabilistic_circuit/nx/probabilistic_circuit.py::ProductUnit.add_subcircuit", "src/probabilistic_model/probabilistic_circuit/nx/probabilistic_circuit.py::ProbabilisticCircuit.add_edges_and_nodes_from_circuit"]}
{"id": "C27", "title": "mount_with_interaction_terms builds the interaction mixture", "statement": "If every latent state of the left mixture has positive interaction probability, the result is the mixture sum_ij P(i,j) p_i(x) q_j(y).", "quantifier": "all pairs of mixtures and interaction tables", "why_tests_cant": "All tables and sizes.", "anchors": ["src/probabilistic_model/probabilistic_circuit/nx/probabilistic_circuit.py::SumUnit.mount_with_interaction_terms"]}
{"id": "C28", "title": "Uniform distribution: cdf, density, conditional agree", "statement": "For every uniform distribution: cdf is monotone with values in [0,1], the probability of every interval union is its share of the length, conditioning yields the uniform distribution on the intersection with the right probability and None iff the intersection is empty.", "quantifier": "all intervals with lower < upper and all queries", "why_tests_cant": "Continuum of parameters and bound styles (open/closed).", "anchors": ["src/probabilistic_model/distributions/uniform.py::UniformDistribution.cdf", "src/probabilistic_model/distributions/uniform.py::UniformDistribution.log_conditional_from_non_singleton_simple_interval", "src/probabilistic_model/distributions/uniform.py::UniformDistribution.log_pdf_value", "src/probabilistic_model/distributions/distributions.py::ContinuousDistribution.log_conditional", "src/probabilistic_model/distributions/distributions.py::ContinuousDistributionWithFiniteSupport.log_likelihood"]}
{"id": "C29", "title": "Uniform moment formula is the integral", "statement": "UniformDistribution.moment equals the integral of (x-c)^k / (u-l) over [l,u] for all k, c, l < u.", "quantifier": "all orders, centers, bounds", "why_tests_cant": "Unbounded order.", "anchors": ["src/probabilistic_model/distributions/uniform.py::UniformDistribution.moment"]}
{"id": "C30", "title": "Integer cdf is the sum of the masses up to x", "statement": "IntegerDistribution.cdf(x) equals the total probability of values <= x, for every dictionary order of the probabilities.", "quantifier": "all probability dictionaries in all insertion orders, all query arrays", "why_tests_cant": "Depends on insertion order of a dict, which fit or scale can produce in any order.", "anchors": ["src/probabilistic_model/distributions/distributions.py::IntegerDistribution.cdf"]}
{"id": "C31", "title": "Discrete conditioning is renormalised restriction", "statement": "Conditioning a discrete distribution on a set keeps exactly the possible values in the set, divides by their total, reports that total as probability and returns None iff the total is 0.", "quantifier": "all probability dictionaries, all sets", "why_tests_cant": "All dictionaries and sets.", "anchors": ["src/probabilistic_model/distributions/distributions.py::DiscreteDistribution.log_conditional_of_composite_set", "src/probabilistic_model/distributions/distributions.py::SymbolicDistribution.log_conditional_of_composite_set", "src/probabilistic_model/distributions/distributions.py::DiscreteDistribution.normalize"]}
{"id": "C32", "title": "fit of a discrete distribution is the empirical distribution", "statement": "After fit(data) the probability of each value is its relative frequency, all probabilities are positive and sum to 1.", "quantifier": "all non-empty data sets", "why_tests_cant": "All data sets.", "anchors": ["src/probabilistic_model/distributions/distributions.py::DiscreteDistribution.fit", "src/probabilistic_model/distributions/distributions.py::SymbolicDistribution.fit"]}
{"id": "C33", "title": "A missing key reads as 0 and is not stored", "statement": "Reading probabilities of unknown keys never changes the distribution: for any history of reads, items(), length and equality stay the same.", "quantifier": "all dictionaries, all histories of reads", "why_tests_cant": "Histories of reads.", "anchors": ["src/probabilistic_model/utils.py::MissingDict"]}
{"id": "C34", "title": "Multinomial marginal is the sum over the other variables", "statement": "MultinomialDistribution.marginal(vs) assigns each kept value combination the sum of the joint over the dropped variables, whatever order vs is given in.", "quantifier": "all tables, all variable subsets in all orders", "why_tests_cant": "All tables and argument orders.", "anchors": ["src/probabilistic_model/distributions/multinomial.py::MultinomialDistribution.marginal"]}
{"id": "C35", "title": "Multinomial mode, probability and conditional", "statement": "mode returns the maximal entry and exactly the cells attaining it; probability is the sum of the cells in the event; conditional zeroes the other cells and renormalises, None iff the sum is 0.", "quantifier": "all tables and events", "why_tests_cant": "All tables.", "anchors": ["src/probabilistic_model/distributions/multinomial.py::MultinomialDistribution.log_mode", "src/probabilistic_model/distributions/multinomial.py::MultinomialDistribution.probability_of_simple_event", "src/probabilistic_model/distributions/multinomial.py::MultinomialDistribution.log_conditional"]}
{"id": "C36", "title": "Multinomial as circuit keeps the distribution", "statement": "as_probabilistic_circuit gives a circuit with the same likelihood on every full assignment.", "quantifier": "all multinomial tables", "why_tests_cant": "All tables.", "anchors": ["src/probabilistic_model/distributions/multinomial.py::MultinomialDistribution.as_probabilistic_circuit"]}
{"id": "C37", "title": "Gaussian moments", "statement": "GaussianDistribution.moment(order, center) equals E[(X-center)^order] for X ~ N(location, scale^2), for every order.", "quantifier": "all locations, scales, orders, centers", "why_tests_cant": "Unbounded order.", "anchors": ["src/probabilistic_model/distributions/gaussian.py::GaussianDistribution.raw_moment", "src/probabilistic_model/distributions/gaussian.py::GaussianDistribution.moment"]}
{"id": "C38", "title": "Rejection sampling returns the requested number of admissible samples", "statement": "For every stream of proposals on which the loop stops, the truncated-Gaussian samplers return exactly `amount` samples, all of them inside the truncation interval.", "quantifier": "all proposal streams, amounts and bounds", "why_tests_cant": "Streams of random proposals are unbounded.", "anchors": ["src/probabilistic_model/distributions/gaussian.py::TruncatedGaussianDistribution.rejection_sample", "src/probabilistic_model/distributions/gaussian.py::TruncatedGaussianDistribution.robert_rejection_sample", "src/probabilistic_model/distributions/gaussian.py::TruncatedGaussianDistribution.robert_rejection_sample_from_standard_normal_between_zero_and_upper"]}
{"id": "C39", "title": "Nyga fit: the quantile intervals partition the data range", "statement": "NygaDistribution.fit on any data with two distinct values terminates with uniform leaves whose intervals are pairwise disjoint, ordered, gap-free and cover [min, max]; so the model is deterministic and every training point has positive likelihood.", "quantifier": "all finite data sets and weights, all min_samples and improvement thresholds", "why_tests_cant": "All data sets; the split tree has unbounded depth.", "anchors": ["src/probabilistic_model/learning/nyga_distribution.py::NygaDistribution.fit", "src/probabilistic_model/learning/nyga_distribution.py::InductionStep.induce", "src/probabilistic_model/learning/nyga_distribution.py::InductionStep.compute_best_split", "src/probabilistic_model/learning/nyga_distribution.py::InductionStep.create_uniform_distribution_from_indices"]}
{"id": "C40", "title": "Nyga fit: leaf weights are the data mass and sum to 1", "statement": "The mixture weights after fit are positive and sum to 1, each is the share of the data weight in its index range, and each leaf holds at least min_samples_per_quantile points when splitting happened.", "quantifier": "all finite data sets", "why_tests_cant": "All data sets.", "anchors": ["src/probabilistic_model/learning/nyga_distribution.py::NygaDistribution.fit", "src/probabilistic_model/learning/nyga_distribution.py::InductionStep.sum_weights", "src/probabilistic_model/learning/nyga_distribution.py::InductionStep.compute_best_split"]}
{"id": "C41", "title": "JPT learning partitions the samples", "statement": "c45 learning terminates; the leaves' sample index sets form a partition of all samples, leaf weights are the shares and sum to 1 and every leaf has at least min_samples_leaf samples (if the data set has).", "quantifier": "all data sets, all impurity split functions that return a split respecting their contract", "why_tests_cant": "The induction queue has unbounded length and the split choices are external.", "anchors": ["src/probabilistic_model/learning/jpt/jpt.py::JPT.fit", "src/probabilistic_model/learning/jpt/jpt.py::JPT.c45"]}
{"id": "C42", "title": "Random region graphs are decomposable", "statement": "For every random outcome, each partition node's child regions are disjoint and their union is the region the partition belongs to.", "quantifier": "all variable sets, numbers of partitions, depths, repetitions and shuffles", "why_tests_cant": "Random shuffles and depths.", "anchors": ["src/probabilistic_model/learning/region_graph/region_graph.py::Region.random_partition", "src/probabilistic_model/learning/region_graph/region_graph.py::RegionGraph.recursive_split"]}
{"id": "C43", "title": "Standardisation round trip", "statement": "decode(encode(v)) = v and encode(decode(u)) = u for every ScaledContinuous variable with non-zero std.", "quantifier": "all means, stds, values", "why_tests_cant": "Continuum of values.", "anchors": ["src/probabilistic_model/learning/jpt/variables.py::ScaledContinuous.encode", "src/probabilistic_model/learning/jpt/variables.py::ScaledContinuous.decode"]}
{"id": "C44", "title": "A Bayesian network and its circuit agree", "statement": "as_probabilistic_circuit assigns each full assignment the product of the root probability and all conditional probabilities.", "quantifier": "all tree-shaped networks of conditional probability tables, all assignments", "why_tests_cant": "All networks.", "anchors": ["src/probabilistic_model/bayesian_network/bayesian_network.py::BayesianNetwork.as_probabilistic_circuit", "src/probabilistic_model/bayesian_network/distributions.py::ConditionalProbabilityTable.interaction_term", "src/probabilistic_model/bayesian_network/distributions.py::RootDistribution.as_probabilistic_circuit"]}
{"id": "C45", "title": "The forward pass computes the evidence probability", "statement": "After forward_pass(event) each node's forward_probability is the conditional probability of its evidence given its ancestors' evidence and the forward_message the posterior of its states.", "quantifier": "all chains/trees of tables, all events", "why_tests_cant": "All networks and events.", "anchors": ["src/probabilistic_model/bayesian_network/bayesian_network.py::BayesianNetwork.forward_pass", "src/probabilistic_model/bayesian_network/distributions.py::ConditionalProbabilityTable.forward_pass", "src/probabilistic_model/bayesian_network/distributions.py::RootDistribution.forward_pass"]}
{"id": "C46", "title": "Layered (jax) sum and product layers compute the unit-wise mixture and product", "statement": "The log-likelihood of node i of a sum layer is the log of the normalised weighted sum of the child likelihoods, independent of the splitting of the children into layers; for product layers it is the sum of the log-likelihoods of the children selected by the edges.", "quantifier": "all layers, weights, sparsity patterns and inputs", "why_tests_cant": "All sparsity patterns.", "anchors": ["src/probabilistic_model/probabilistic_circuit/jax/inner_layer.py::SparseSumLayer.log_likelihood_of_nodes_single", "src/probabilistic_model/probabilistic_circuit/jax/inner_layer.py::DenseSumLayer.log_likelihood_of_nodes_single", "src/probabilistic_model/probabilistic_circuit/jax/inner_layer.py::ProductLayer.log_likelihood_of_nodes_single"]}
{"id": "C47", "title": "Sparse index construction enumerates exactly the requested cells", "statement": "create_bcoo_indices_from_row_lengths(lengths) lists exactly the pairs (r, c) with c < lengths[r], row by row.", "quantifier": "all lists of row lengths", "why_tests_cant": "All lists; a test with two rows cannot see an error from the third row on.", "anchors": ["src/probabilistic_model/probabilistic_circuit/jax/utils.py::create_bcoo_indices_from_row_lengths", "src/probabilistic_model/probabilistic_circuit/jax/utils.py::create_bcoo_indices_from_row_lengths_np", "src/probabilistic_model/probabilistic_circuit/jax/utils.py::create_bcsr_indices_from_row_lengths"]}
{"id": "C48", "title": "Index compaction keeps order and identity", "statement": "shrink_index_array maps each column's indices order-isomorphically onto an initial segment 0..k-1 and removal of all-zero rows/columns keeps all remaining entries.", "quantifier": "all integer index arrays", "why_tests_cant": "All arrays.", "anchors": ["src/probabilistic_model/probabilistic_circuit/jax/utils.py::shrink_index_array", "src/probabilistic_model/probabilistic_circuit/jax/utils.py::sparse_remove_rows_and_cols_where_all"]}
{"id": "C49", "title": "Coupling-circuit parameter slices partition the parameter vector", "statement": "slices_of_parameters_for_flat_model are consecutive, disjoint and cover the flat vector exactly.", "quantifier": "all lists of parameter shapes", "why_tests_cant": "All shapes.", "anchors": ["src/probabilistic_model/probabilistic_circuit/jax/coupling_circuit.py::slices_of_parameters_for_flat_model"]}
{"id": "C50", "title": "uniform_measure_of_event is uniform", "statement": "The circuit returned by uniform_measure_of_event assigns every sub-event its share of the volume of the event.", "quantifier": "all non-empty bounded events", "why_tests_cant": "All unions of boxes.", "anchors": ["src/probabilistic_model/probabilistic_circuit/nx/helper.py::uniform_measure_of_event", "src/probabilistic_model/probabilistic_circuit/nx/helper.py::uniform_measure_of_simple_event"]}
{"id": "C51", "title": "Conditioning a continuous leaf is Bayes' rule", "statement": "Conditioning a uniform, Gaussian or truncated Gaussian distribution on an interval returns the distribution whose law is the original law restricted to the interval and divided by its probability, together with the log of that probability.", "quantifier": "all continuous leaf distributions, all intervals and measurable sets", "why_tests_cant": "All parameters and intervals.", "anchors": ["src/probabilistic_model/distributions/distributions.py::ContinuousDistribution.log_conditional", "src/probabilistic_model/distributions/gaussian.py::GaussianDistribution.log_conditional_from_simple_interval", "src/probabilistic_model/distributions/gaussian.py::TruncatedGaussianDistribution"]}
{"id": "C52", "title": "Truncated Gaussian moments", "statement": "TruncatedGaussianDistribution.moment(order, center) equals E[(X-center)^order | X in interval] for X ~ N(location, scale^2), for every order, center and interval with finite or infinite borders.", "quantifier": "all locations, scales, intervals, orders, centers", "why_tests_cant": "Unbounded order, real parameters.", "anchors": ["src/probabilistic_model/distributions/gaussian.py::TruncatedGaussianDistribution.moment"]}
{"id": "C53", "title": "A truncated Gaussian can sample every value of its support", "statement": "For every truncation interval and every value inside it there is a run of sample that returns the value (sampling is not confined to a part of the support).", "quantifier": "all truncation intervals (bounded, one-sided), locations, scales, values inside the interval", "why_tests_cant": "Whether a value can be returned is a statement about all random streams; a test sees a handful of samples and cannot notice a missing far part.", "anchors": ["src/probabilistic_model/distributions/gaussian.py:TruncatedGaussianDistribution.robert_rejection_sample", "src/probabilistic_model/distributions/gaussian.py:TruncatedGaussianDistribution.sample"]}
{"id": "C54", "title": "Replacing discrete leaves keeps the circuit usable", "statement": "replace_discrete_distribution_with_deterministic_sum replaces every discrete leaf of a circuit by a deterministic sum unit and leaves the likelihood of every point as it was.", "quantifier": "all circuits (any number and position of discrete leaves, shared leaves included)", "why_tests_cant": "All circuits and all points.", "anchors": ["src/probabilistic_model/probabilistic_circuit/nx/probabilistic_circuit.py::ProbabilisticCircuit.replace_discrete_distribution_with_deterministic_sum", "src/probabilistic_model/probabilistic_circuit/nx/distributions/distributions.py::UnivariateDiscreteLeaf.as_deterministic_sum"]}
{"id": "C55", "title": "Multinomial fit gives relative frequencies", "statement": "MultinomialDistribution.fit(data) sets every cell to its share of the data rows, whatever the table held before; a row outside the table raises an error.", "quantifier": "all tables, all finite non-empty data sets of index rows", "why_tests_cant": "Every count pattern and every shape must be covered; a test fixes one data set.", "anchors": ["src/probabilistic_model/distributions/multinomial.py::MultinomialDistribution.fit", "src/probabilistic_model/distributions/multinomial.py::MultinomialDistribution.normalize"]}
{"id": "C56", "title": "Event probabilities survive the conversion of a multinomial to a circuit", "statement": "The circuit returned by MultinomialDistribution.as_probabilistic_circuit assigns every event the probability the table assigns it.", "quantifier": "all tables, all symbolic domains, all events", "why_tests_cant": "The claim is about all symbolic domains, including those whose hashes are not 0, 1, ..., and all events over them.", "anchors": ["src/probabilistic_model/distributions/multinomial.py::MultinomialDistribution.as_probabilistic_circuit", "src/probabilistic_model/distributions/multinomial.py::MultinomialDistribution.indices_from_simple_event", "src/probabilistic_model/distributions/distributions.py::SymbolicDistribution.probability_of_simple_event"]}
{"id": "C57", "title": "Nyga fit stops only where no split helps", "statement": "InductionStep.compute_best_split returns a split of maximal log-likelihood among all admissible ones, and no quantile of a fitted NygaDistribution can be split, with min_samples_per_quantile points on both sides, so that the likelihood of its points grows by more than the factor min_likelihood_improvement.", "quantifier": "all finite data sets and positive weights, all parameters", "why_tests_cant": "All data sets; the argmax ranges over all split positions.", "anchors": ["src/probabilistic_model/learning/nyga_distribution.py::InductionStep.compute_best_split", "src/probabilistic_model/learning/nyga_distribution.py::InductionStep.improvement_is_good_enough", "src/probabilistic_model/learning/nyga_distribution.py::NygaDistribution.fit"]}
{"id": "C58", "title": "A multinomial without probabilities is uniform, normalize makes it a distribution", "statement": "MultinomialDistribution(variables) gives every combination of symbols the same probability and sums to one; normalize divides every entry by the sum of all, so that ratios are kept and the sum is one.", "quantifier": "all finite lists of symbolic variables with non-empty domains; all tables of non-negative numbers, not all zero", "why_tests_cant": "All numbers of variables and domain sizes.", "anchors": ["src/probabilistic_model/distributions/multinomial.py::MultinomialDistribution.__init__", "src/probabilistic_model/distributions/multinomial.py::MultinomialDistribution.normalize"]}
{"id": "C59", "title": "Learning a tree does not depend on earlier learning", "statement": "The tree a new JPT learns from a data set is the same whatever trees were learned before it in the same process, and whether these fits succeeded or raised an exception.", "quantifier": "all sequences of earlier fits, all data sets and settings", "why_tests_cant": "The history of earlier fits is arbitrary; tests learn one tree per process or only after successes.", "anchors": ["src/probabilistic_model/learning/jpt/jpt.py::JPT.c45queue", "src/probabilistic_model/learning/jpt/jpt.py::JPT.fit"]}
{"id": "C60", "title": "Every training sample is possible", "statement": "Under the tree a JPT learned, every training sample has a positive likelihood.", "quantifier": "all data sets, all columns of continuous, integer and symbolic variables, all split choices", "why_tests_cant": "All data sets and split sequences.", "anchors": ["src/probabilistic_model/learning/jpt/jpt.py::JPT.fit", "src/probabilistic_model/learning/jpt/jpt.py::JPT.create_leaf_node", "src/probabilistic_model/distributions/distributions.py::DiscreteDistribution.fit"]}
{"id": "C61", "title": "Tree learning respects its limits and stops only at them", "statement": "A learned JPT has at most 2**max_depth leaves and at most max_leaves leaves; a leaf is left unsplit only if it is too deep, has less than twice min_samples_leaf samples or the impurity reports no gain above min_impurity_improvement.", "quantifier": "all data sets, settings and split functions", "why_tests_cant": "All data sets and split sequences.", "anchors": ["src/probabilistic_model/learning/jpt/jpt.py::JPT.c45", "src/probabilistic_model/learning/jpt/jpt.py::JPT.__init__"]}
{"id": "C62", "title": "A layered (jax) circuit evaluates the columns of its variables", "statement": "For every well-formed layered circuit and every row of values, the log-likelihood of the root layer is the logarithm of the mixture/product formula in which each input layer sees the value of its own variable.", "quantifier": "all layered circuits (any nesting of sum, product and input layers), all rows", "why_tests_cant": "The column selection of nested product layers depends on the nesting and on the variable indices.", "anchors": ["src/probabilistic_model/probabilistic_circuit/jax/inner_layer.py::ProductLayer.log_likelihood_of_nodes_single", "src/probabilistic_model/probabilistic_circuit/jax/inner_layer.py::Layer.variables", "src/probabilistic_model/probabilistic_circuit/jax/probabilistic_circuit.py::ProbabilisticCircuit.log_likelihood"]}
{"id": "C63", "title": "Samples are distributed as the circuit says", "statement": "Each row returned by sample(amount) of a circuit with normalised sum units and leaves lies in a given event with the probability that probability(event) returns, whatever the requested amount and whichever row is looked at. (The code satisfies this for one sample, and the chance that all rows lie in the event is probability(event) to the power amount; from three samples on single rows are biased for products of mixtures.)", "quantifier": "all layered, smooth, decomposable circuits with normalised weights and leaves, all simple events over their variables, all amounts and rows", "why_tests_cant": "The distribution of a random sampler is a statement about all outcomes of the random generators; a test observes finitely many runs.", "anchors": ["src/probabilistic_model/probabilistic_circuit/nx/probabilistic_circuit.py:SumUnit.sample", "src/probabilistic_model/probabilistic_circuit/nx/probabilistic_circuit.py:ProductUnit.sample", "src/probabilistic_model/probabilistic_circuit/nx/probabilistic_circuit.py:ProbabilisticCircuit.sample"]}
{"id": "C64", "title": "from_uniform_mixture describes the same distribution", "statement": "NygaDistribution.from_uniform_mixture(mixture) has the likelihood of the mixture at every point that is not a border of one of the mixture's leaves, gives every event the same probability, and its leaves do not overlap.", "quantifier": "all univariate circuits made of sum units (root included) above uniform leaves, nested or not, overlapping or not; all points; all events", "why_tests_cant": "The borders of any number of overlapping leaves must be cut and weighted consistently; tests fix a few mixtures and points.", "anchors": ["src/probabilistic_model/learning/nyga_distribution.py::NygaDistribution.from_uniform_mixture"]}
{"id": "C65", "title": "fully_factorized has the requested means and variances", "statement": "fully_factorized(variables, means, variances) returns a circuit whose density at every point is the product, over the variables, of the normal density with mean means[v] and variance variances[v] for continuous variables and of 1/len(domain) on the domain of symbolic variables; other variables raise.", "quantifier": "every finite collection of distinct variables, all means, all positive variances, all finite domains, all points", "why_tests_cant": "A claim about the density at every point for all parameters; at variance one the variance and the standard deviation coincide, and a test of the circuit's structure does not see the difference.", "anchors": ["src/probabilistic_model/probabilistic_circuit/nx/helper.py:fully_factorized", "src/probabilistic_model/distributions/gaussian.py:GaussianDistribution"]}
{"id": "C66", "title": "Bayesian network nodes with circuits answer for the distributions they were given", "statement": "For a Bayesian network node whose conditional distributions are circuits, joint_distribution_with_parent is the joint distribution of the parent's state and the node's variables, and every forward_pass gives a forward_probability whose product with the parent's is the probability of the event under the distributions the node was created with, whatever was asked before.", "quantifier": "all parent distributions, all numbers of parent states, all conditional circuits over the node's variables that share no units, all events over the two nodes, and all pairs of consecutive forward passes", "why_tests_cant": "A test runs a pass on a few networks; the claim is about every circuit and event, and about every history of passes on the same node object.", "anchors": ["src/probabilistic_model/bayesian_network/distributions.py: ConditionalProbabilisticCircuit.joint_distribution_with_parent, ConditionalProbabilisticCircuit.forward_pass", "src/probabilistic_model/probabilistic_circuit/nx/probabilistic_circuit.py: Unit.mount, ProbabilisticCircuit.log_conditional_of_simple_event_in_place"]}
{"id": "C67", "title": "Conversion to layers preserves the log-likelihood", "statement": "Converting a smooth and decomposable circuit to the layered representation succeeds, and the layered model gives the log-likelihood of the circuit for every row of data over the variables of the circuit.", "quantifier": "all circuits with a single root, all scopes, numbers of units per level and leaf distributions, all rows in the domain of the variables, and all orders in which Python's sets are traversed", "why_tests_cant": "A test converts a few circuits and evaluates a few points; the claim is about every shape of circuit and every traversal order of the sets of unit types and scopes that the conversion iterates over.", "anchors": ["src/probabilistic_model/probabilistic_circuit/jax/probabilistic_circuit.py: ProbabilisticCircuit.from_nx", "src/probabilistic_model/probabilistic_circuit/jax/inner_layer.py: Layer.create_layers_from_nodes, SumLayer.create_layer_from_nodes_with_same_type_and_scope, ProductLayer.create_layer_from_nodes_with_same_type_and_scope", "src/probabilistic_model/probabilistic_circuit/jax/input_layer.py: DiracDeltaLayer.create_layer_from_nodes_with_same_type_and_scope", "src/probabilistic_model/probabilistic_circuit/jax/uniform_layer.py: UniformLayer.create_layer_from_nodes_with_same_type_and_scope", "src/probabilistic_model/probabilistic_circuit/jax/discrete_layer.py: DiscreteLayer.create_layer_from_nodes_with_same_type_and_scope", "src/probabilistic_model/probabilistic_circuit/jax/gaussian_layer.py: GaussianLayer.create_layer_from_nodes_with_same_type_and_scope"]}
{"id": "C68", "title": "Conversion of layers to a circuit preserves the likelihood", "statement": "Converting a layered model with a single output node to a circuit succeeds, with and without a progress bar, and the circuit gives every full assignment the likelihood that the layered model gives it.", "quantifier": "all nestings of input, sparse sum, dense sum and product layers with matching shapes whose sum layers are smooth, all parameters, all assignments in the domain of the variables", "why_tests_cant": "A test converts a few layered models and compares a few values; the claim is about every nesting of layers, every sparsity pattern and all weights and parameters.", "anchors": ["src/probabilistic_model/probabilistic_circuit/jax/probabilistic_circuit.py: ProbabilisticCircuit.to_nx", "src/probabilistic_model/probabilistic_circuit/jax/inner_layer.py: SparseSumLayer.to_nx, DenseSumLayer.to_nx, ProductLayer.to_nx", "src/probabilistic_model/probabilistic_circuit/jax/input_layer.py: DiracDeltaLayer.to_nx", "src/probabilistic_model/probabilistic_circuit/jax/uniform_layer.py: UniformLayer.to_nx", "src/probabilistic_model/probabilistic_circuit/jax/gaussian_layer.py: GaussianLayer.to_nx", "src/probabilistic_model/probabilistic_circuit/jax/discrete_layer.py: DiscreteLayer.to_nx"]}
{"id": "C69", "title": "JSON round trip of layered circuits", "statement": "Reading the JSON form of a layered circuit gives a layered circuit with the same variables, the same nesting and classes of layers, the same edges, weights and parameters.", "quantifier": "all layered circuits of any nesting, with any weights (also zero weights), edges and parameters", "why_tests_cant": "A test saves and loads a few layered circuits; the claim is about every nesting, every sparsity pattern and all values, including infinite log-weights.", "anchors": ["src/probabilistic_model/probabilistic_circuit/jax/probabilistic_circuit.py: ProbabilisticCircuit.to_json, ProbabilisticCircuit._from_json", "src/probabilistic_model/probabilistic_circuit/jax/inner_layer.py: InnerLayer.to_json, InputLayer.to_json, SparseSumLayer.to_json, SparseSumLayer._from_json, DenseSumLayer.to_json, DenseSumLayer._from_json, ProductLayer.to_json, ProductLayer._from_json", "src/probabilistic_model/probabilistic_circuit/jax/input_layer.py: ContinuousLayerWithFiniteSupport.to_json, DiracDeltaLayer.to_json, DiracDeltaLayer._from_json", "src/probabilistic_model/probabilistic_circuit/jax/uniform_layer.py: UniformLayer._from_json", "src/probabilistic_model/probabilistic_circuit/jax/gaussian_layer.py: GaussianLayer.to_json, GaussianLayer._from_json", "src/probabilistic_model/probabilistic_circuit/jax/discrete_layer.py: DiscreteLayer.to_json, DiscreteLayer._from_json"]}
{"id": "C70", "title": "Classification circuits as joint models", "statement": "Turning a classification circuit into a circuit over its variables and the class succeeds; the result is over the variables and the class, and the likelihood of a row with class k is the (normalized) probability of class k times the likelihood that node k of the classification circuit gives to the row.", "quantifier": "all classification circuits that can be evaluated, all class variables, all class probabilities, all rows and classes", "why_tests_cant": "A test checks one trained classifier with one name for the class variable; the claim is about every nesting of layers, every position of the class among the variables and all weights.", "anchors": ["src/probabilistic_model/probabilistic_circuit/jax/probabilistic_circuit.py: ClassificationCircuit.as_probabilistic_circuit", "src/probabilistic_model/probabilistic_circuit/jax/inner_layer.py: Layer.__deepcopy__, SparseSumLayer.__deepcopy__, DenseSumLayer.__deepcopy__, ProductLayer.__deepcopy__", "src/probabilistic_model/probabilistic_circuit/jax/input_layer.py: ContinuousLayerWithFiniteSupport.__deepcopy__", "src/probabilistic_model/probabilistic_circuit/jax/gaussian_layer.py: GaussianLayer.__deepcopy__"]}
{"id": "C71", "title": "Layered circuits are normalized", "statement": "Whatever the parameters of a smooth and decomposable layered circuit are, the likelihoods it computes for a node integrate to one over the variables of the circuit (lengths for real variables, counting for states).", "quantifier": "all layered circuits (nesting, numbers of nodes, sparse and dense sums, products), all parameter values, mixed real and symbolic variables", "why_tests_cant": "An integral over all rows of all circuits with all parameter values; training relies on it at every step, tests evaluate a few rows.", "anchors": ["src/probabilistic_model/probabilistic_circuit/jax/inner_layer.py: SumLayer.log_likelihood_of_nodes_single, DenseSumLayer.log_normalization_constants, SparseSumLayer.log_normalization_constants, ProductLayer.log_likelihood_of_nodes_single", "src/probabilistic_model/probabilistic_circuit/jax/gaussian_layer.py: GaussianLayer", "src/probabilistic_model/probabilistic_circuit/jax/uniform_layer.py: UniformLayer", "src/probabilistic_model/probabilistic_circuit/jax/discrete_layer.py: DiscreteLayer"]}
{"id": "C72", "title": "Random region graphs become normalized circuits", "statement": "For every outcome of the shuffles and of the random parameters, the region graph created over continuous and symbolic variables converts to a layered circuit over exactly these variables with one output per class: sums are over children with the same variables, products over children with disjoint variables, and every class has integral one.", "quantifier": "all variable sets, variable types, numbers of parts, depths, repetitions, units, classes, shuffle outcomes and random parameters", "why_tests_cant": "The structure is random and unbounded in depth and width; tests convert one or two graphs with fixed seeds and never integrate the result.", "anchors": ["src/probabilistic_model/learning/region_graph/region_graph.py:RegionGraph.as_probabilistic_circuit", "src/probabilistic_model/learning/region_graph/region_graph.py:RegionGraph.root", "src/probabilistic_model/learning/region_graph/region_graph.py:RegionGraph.create_random_region_graph"]}
{"id": "C73", "title": "The Monte Carlo L1 estimate is unbiased and consistent", "statement": "MonteCarloEstimator(p, n).l1_metric(q) has expectation equal to the L1 distance between the two densities for every sample size n >= 1, and converges to it almost surely as n grows.", "quantifier": "all measure spaces, all pairs of probability densities, all tolerances, all sample sizes", "why_tests_cant": "An estimate is random; a test sees finitely many draws and can only compare with a loose tolerance. The expectation and the almost-sure limit are statements about all draws.", "anchors": ["src/probabilistic_model/monte_carlo_estimator.py: MonteCarloEstimator.l1_metric"]}
{"id": "C74", "title": "The uniform-measure L1 estimate is unbiased", "statement": "MonteCarloEstimator(p, n).l1_metric_but_with_uniform_measure(q) has expectation equal to the L1 distance between the two densities whenever both vanish outside the set the uniform measure is built on.", "quantifier": "all measure spaces, all pairs of probability densities, all sets of finite positive measure, all sample sizes", "why_tests_cant": "The claim is about an expectation over all possible samples of every pair of models.", "anchors": ["src/probabilistic_model/monte_carlo_estimator.py: MonteCarloEstimator.l1_metric_but_with_uniform_measure"]}
{"id": "C75", "title": "A conditional probability table built from a joint table reproduces the joint table", "statement": "ConditionalProbabilityTable(variable).from_multinomial_distribution(joint) stores a row for every state of the other variable, and the row entry of a symbol times the marginal probability of the state is the joint probability of state and symbol.", "quantifier": "all two-variable tables with non-negative entries, either variable first, any domains, any rows stored before", "why_tests_cant": "There are infinitely many tables; a test on one table with symbols 0..n-1 and positive entries does not see the failing cases.", "anchors": ["src/probabilistic_model/bayesian_network/distributions.py: ConditionalProbabilityTable.from_multinomial_distribution"]}
{"id": "C76", "title": "Shallow circuits", "statement": "ShallowProbabilisticCircuit.from_probabilistic_circuit turns every circuit into a sum unit of product units of leaf units with the same density at every point.", "quantifier": "every circuit whose inner units are not shared, of every depth and width, and every value of the leaf units", "why_tests_cant": "The transformation is recursive, adds and removes units while it walks the graph and enumerates all combinations of subcircuits; tests look at a few circuits.", "anchors": ["src/probabilistic_model/probabilistic_circuit/nx/probabilistic_circuit.py: ShallowProbabilisticCircuit.from_probabilistic_circuit, shallowing, remove_node_and_successor_structure"]}
{"id": "C77", "title": "A JPT's parameters survive JSON", "statement": "A JPT that is written with to_json and read with from_json, before or after learning, has the same variables with their statistics, targets, features, limits, dependencies and number of samples. Targets and features that are not given are the rest of the variables (or all of them), sorted by name.", "quantifier": "all lists of variables with different names, all choices of targets, features, dependencies and limits", "why_tests_cant": "Tests use one configuration; whether the parameters come back depends on which of targets, features and dependencies are given and on their order.", "anchors": ["src/probabilistic_model/learning/jpt/jpt.py:JPT.__init__", "src/probabilistic_model/learning/jpt/jpt.py:JPT.set_targets_and_features", "src/probabilistic_model/learning/jpt/jpt.py:JPT.to_json", "src/probabilistic_model/learning/jpt/jpt.py:JPT.parameters_from_json", "src/probabilistic_model/learning/jpt/variables.py:Continuous"]}
{"id": "C78", "title": "A copy of a JPT learns like the JPT", "statement": "A copy of a JPT (empty_copy, which is what copying uses) has the same parameters and learns the same tree from every data set.", "quantifier": "all parameters, all data sets, all impurity measures that keep their contract", "why_tests_cant": "A copy with another minimal number of samples learns the same tree from most small data sets.", "anchors": ["src/probabilistic_model/learning/jpt/jpt.py:JPT.empty_copy", "src/probabilistic_model/learning/jpt/jpt.py:JPT.min_samples_leaf"]}
{"id": "C79", "title": "The split search is told the right columns", "statement": "construct_impurity hands over, in increasing order, exactly the columns of the numeric and the symbolic targets and features of the preprocessed data, the sizes and variances of the variables in column order, and for every variable with dependencies their columns.", "quantifier": "all variables, targets, features and dependencies", "why_tests_cant": "The test only checks the type of the result; an index that is off by one gives a worse tree, not an error.", "anchors": ["src/probabilistic_model/learning/jpt/jpt.py:JPT.construct_impurity"]}
{"id": "C80", "title": "Preprocessing and inferred variables", "statement": "The variables that infer_variables_from_dataframe gives for a data frame of numbers and strings, scaled or not, can be used to preprocess it; every entry of the preprocessed data determines the cell of the data frame it is for, whatever the order of the columns, so no information is lost; minimal_distance is the least distance of two different values.", "quantifier": "all data frames with at least one row", "why_tests_cant": "Constant columns, column orders and other data frames are not in the tests.", "anchors": ["src/probabilistic_model/learning/jpt/jpt.py:JPT.preprocess_data", "src/probabilistic_model/learning/jpt/variables.py:infer_variables_from_dataframe", "src/probabilistic_model/learning/jpt/variables.py:ScaledContinuous"]}
{"id": "C81", "title": "Symbolic columns are learned with the frequencies of the data frame", "statement": "After preprocessing and fitting, the probability of every element of the domain of a symbolic variable is the relative frequency of its name in the column of the data frame.", "quantifier": "all domains (enumerations), all columns of names of elements", "why_tests_cant": "The tests only use enumerations whose values are 0, 1, 2, ...", "anchors": ["src/probabilistic_model/learning/jpt/jpt.py:JPT.preprocess_data", "src/probabilistic_model/distributions/distributions.py:SymbolicDistribution.fit"]}
{"id": "C82", "title": "Comparing circuits and distributions", "statement": "circuit == other never raises; it is reflexive, symmetric and transitive; a circuit equals its copy and what is read back from its JSON; circuits that compare equal describe the same distribution. Distributions that compare equal have the same variable, likelihoods and probabilities.", "quantifier": "all pairs and triples of circuits, all shapes, sharing, weights and leaves; all pairs of distributions", "why_tests_cant": "Tests compare a circuit with its copy; that no two different distributions compare equal is a statement about all pairs.", "anchors": ["src/probabilistic_model/probabilistic_circuit/nx/probabilistic_circuit.py:ProbabilisticCircuit.__eq__", "src/probabilistic_model/probabilistic_circuit/nx/probabilistic_circuit.py:Unit.__eq__", "src/probabilistic_model/probabilistic_circuit/nx/probabilistic_circuit.py:SumUnit.__eq__", "src/probabilistic_model/distributions/distributions.py"]}
{"id": "C83", "title": "Multinomial distributions: JSON, copies and equality", "statement": "A multinomial distribution is read back from its JSON with the same variables, entries and likelihoods; copying keeps them; two distributions compare equal exactly if their variables and probabilities are equal.", "quantifier": "all tables over any number of variables with any domains", "why_tests_cant": "Nested lists of every depth have to be read back; equality is a statement about all pairs of tables.", "anchors": ["src/probabilistic_model/distributions/multinomial.py:MultinomialDistribution.to_json", "src/probabilistic_model/distributions/multinomial.py:MultinomialDistribution._from_json", "src/probabilistic_model/distributions/multinomial.py:MultinomialDistribution.__eq__", "src/probabilistic_model/distributions/multinomial.py:MultinomialDistribution.__copy__"]}
{"id": "C84", "title": "Renaming variables", "statement": "After update_variables(new_variables) the circuit is over the renamed variables, and its likelihood at every point is that of the original circuit with the values read under the old names; renamings that keep names different keep decomposability.", "quantifier": "all circuits, all renamings (including swaps and renamings of variables that do not occur), all points", "why_tests_cant": "One renaming of one circuit says nothing about swaps, shared units or circuits with one unit.", "anchors": ["src/probabilistic_model/probabilistic_circuit/nx/probabilistic_circuit.py:ProbabilisticCircuit.update_variables"]}
{"id": "C85", "title": "Learning from a data frame, end to end", "statement": "For every data frame of numbers and strings, infer_variables_from_dataframe followed by JPT(variables, ...).fit(data) succeeds, and every row of the data frame, read as a point of the domain of the model, has a positive likelihood under the learned model.", "quantifier": "all data frames with at least one row, all targets, features and limits, every split search that keeps its contract", "why_tests_cant": "The result depends on every column and every split; a test learns from a handful of data frames.", "anchors": ["src/probabilistic_model/learning/jpt/jpt.py:JPT.fit", "src/probabilistic_model/learning/jpt/jpt.py:JPT.preprocess_data", "src/probabilistic_model/learning/jpt/jpt.py:JPT.create_leaf_node", "src/probabilistic_model/learning/jpt/variables.py:infer_variables_from_dataframe"]}
{"id": "C86", "title": "The variables of a learned tree have the distribution of the data", "statement": "After JPT.fit the probability that a symbolic or integer variable is in a set equals the share of the training rows with an entry in the set, whatever splits the tree made. A continuous variable has probability 1 of being between the smallest and the largest entry of its column.", "quantifier": "all training data, settings, split searches that keep their contract, variables and sets of values", "why_tests_cant": "The share has to survive every way of splitting the rows into leaves; a test looks at one tree.", "anchors": ["src/probabilistic_model/learning/jpt/jpt.py:JPT.fit", "src/probabilistic_model/learning/jpt/jpt.py:JPT.create_leaf_node", "src/probabilistic_model/probabilistic_circuit/nx/probabilistic_circuit.py:ProbabilisticCircuit.probability"]}
{"id": "C87", "title": "Marginals of learned trees", "statement": "JPT.marginal([v]) returns a model of v that gives every set of values of v the probability it has in the tree; for a discrete variable it is one leaf with the relative frequencies of the training data; on several variables, or without simplification, it returns a model of the kept variables with the probabilities of the tree; on foreign variables it returns None.", "quantifier": "all column settings, impurities that keep the split contract, data sets, learned trees, kept variables, domains and events", "why_tests_cant": "Ranges over all data sets and all trees learned from them; whether the simplified marginal exists depends on which leaves the data produce.", "anchors": ["src/probabilistic_model/learning/jpt/jpt.py:JPT.marginal", "src/probabilistic_model/learning/nyga_distribution.py:NygaDistribution.from_uniform_mixture", "src/probabilistic_model/probabilistic_circuit/nx/distributions/distributions.py:UnivariateDiscreteLeaf.from_mixture"]}
{"id": "C88", "title": "What conditioning a tree on a simple event computes", "statement": "For every tree-shaped smooth decomposable circuit without zero weights and every possible simple event that meets each leaf's support in at most one interval, conditional() returns without an error; the returned number is the probability of the event; the returned circuit is smooth, decomposable, over the same variables, with normalized sums; and the probability it assigns to any event is the one obtained by conditioning the leaves, dropping impossible children, and rescaling what is left of the old weights to one.", "quantifier": "all such circuits (any size and depth), all such events E and all events F over the variables", "why_tests_cant": "the removal of units, the in-place collapse of single-child units and nested sums, and the renormalisation interact over unboundedly many shapes of trees", "anchors": ["src/probabilistic_model/probabilistic_circuit/nx/probabilistic_circuit.py:ProbabilisticCircuit.log_conditional_of_simple_event_in_place", "src/probabilistic_model/probabilistic_circuit/nx/probabilistic_circuit.py:SumUnit.simplify", "src/probabilistic_model/probabilistic_circuit/nx/probabilistic_circuit.py:ProbabilisticCircuit.normalize"]}
{"id": "C89", "title": "Coupling circuits are conditional distributions", "statement": "CouplingCircuit.conditional_log_likelihood evaluates, for every row, the circuit that has the structure of the template and the parameters the conditioner computes from the conditioner columns, at the values in the circuit columns; for every value of the conditioner columns the likelihoods integrate to one over the circuit columns.", "quantifier": "all conditioners (arbitrary functions with the asked output length), all layered circuits, all rows", "why_tests_cant": "The conditioner is an arbitrary function and the parameters range over all real vectors; that every parameter lands in its place and that the result is normalized for all of them is not testable by examples.", "anchors": ["src/probabilistic_model/probabilistic_circuit/jax/coupling_circuit.py:CouplingCircuit.conditional_log_likelihood", "src/probabilistic_model/probabilistic_circuit/jax/coupling_circuit.py:CouplingCircuit.create_circuit_from_parameters"]}
{"id": "C90", "title": "The subgraph of a unit is the circuit of that unit", "statement": "ProbabilisticCircuit.subgraph_of(unit) contains exactly the unit and the units below it with the same edges, is a valid (layered, smooth, decomposable) circuit with the unit as root, and its likelihood is the likelihood of the unit within the circuit.", "quantifier": "all layered smooth decomposable circuits, all their units, all points", "why_tests_cant": "The claim ranges over all graphs and all units, including shared units.", "anchors": ["src/probabilistic_model/probabilistic_circuit/nx/probabilistic_circuit.py:ProbabilisticCircuit.subgraph_of"]}
{"id": "C91", "title": "nodes_weights lists the weights of the units", "statement": "ProbabilisticCircuit.nodes_weights() maps every unit to the list of its weights, one entry per path from the root.", "quantifier": "all layered circuits, all units", "why_tests_cant": "The number of paths grows exponentially with the depth; that the breadth-first order collects every path exactly once is a statement about all graphs.", "anchors": ["src/probabilistic_model/probabilistic_circuit/nx/probabilistic_circuit.py:ProbabilisticCircuit.nodes_weights"]}
{"id": "C92", "title": "Equal distributions have equal hashes", "statement": "Two univariate distributions that compare equal with == are hashable and have the same hash, so that sets and dictionaries treat them as one.", "quantifier": "all pairs of uniform, Dirac, symbolic, integer, Gaussian and truncated Gaussian distributions, and all hash functions of tuples", "why_tests_cant": "A test hashes a few objects; the contract is about every pair of equal objects, including discrete distributions whose probabilities were inserted in another order.", "anchors": ["src/probabilistic_model/distributions/distributions.py: DiscreteDistribution.__hash__, DiracDeltaDistribution.__hash__", "src/probabilistic_model/distributions/uniform.py: UniformDistribution.__hash__", "src/probabilistic_model/distributions/gaussian.py: GaussianDistribution.__eq__, TruncatedGaussianDistribution.__eq__"]}
{"id": "C93", "title": "Array helpers of layered circuits", "statement": "remove_rows_and_cols_where_all returns, in order, exactly the rows and columns that have some entry different from the value; embed_sparse_array_in_nan_array returns an array of the same shape with the stored entries and NaN elsewhere; for every outcome of the draws, sample_from_sparse_probabilities_csc returns counts at exactly the positions of the probabilities whose rows sum up to the requested amounts.", "quantifier": "all rectangular arrays and values, all sparse arrays with unique indices, all outcomes of the multinomial draws", "why_tests_cant": "The claims are about every shape and sparsity pattern and every random outcome; a test fixes one array.", "anchors": ["src/probabilistic_model/probabilistic_circuit/jax/utils.py: remove_rows_and_cols_where_all, embed_sparse_array_in_nan_array, sample_from_sparse_probabilities_csc"]}
{"id": "C94", "title": "is_valid is exact", "statement": "is_valid returns True exactly for the circuits that have no directed cycle and are connected, and raises only for a circuit without units; every acyclic circuit with a root is valid; a valid circuit has a unit without parents, and if there is only one, it is the root and every unit is below it, otherwise root raises ValueError.", "quantifier": "all directed graphs of units", "why_tests_cant": "The answer depends on the whole graph; tests look at a few small circuits.", "anchors": ["src/probabilistic_model/probabilistic_circuit/nx/probabilistic_circuit.py: ProbabilisticCircuit.is_valid, ProbabilisticCircuit.root"]}
{"id": "C95", "title": "Conditioning confines the model to the event", "statement": "After conditional(E) on a possible event, E has probability one in the returned model, an event F has probability zero in it exactly if E and F together have probability zero in the original model, and conditioning the result again on a simple event F returns None exactly in that case.", "quantifier": "all tree-shaped smooth decomposable circuits without zero weights (any size and depth), all possible simple events and unions of disjoint simple events that meet each leaf's support in at most one interval, all events F", "why_tests_cant": "The weights after conditioning are wrong in general, so no sampled comparison of numbers can tell whether at least the support is right; the claim ranges over all circuits, evidence and follow-up events.", "anchors": ["src/probabilistic_model/probabilistic_circuit/nx/probabilistic_circuit.py: log_conditional_in_place, log_conditional_of_simple_event_in_place, probability", "src/probabilistic_model/probabilistic_model.py: conditional"]}
{"id": "C96", "title": "What conditioning a tree on a union of simple events computes", "statement": "For a union of at least two simple events, conditional() returns None if all of them are impossible; otherwise it returns a smooth decomposable tree over the same variables with normalized sums in which every event has the average of the probabilities given by conditioning on the single simple events, weighted with their probabilities.", "quantifier": "all tree-shaped smooth decomposable circuits without zero weights (any size and depth), all unions of two or more simple events that meet each leaf's support in at most one interval, all events F", "why_tests_cant": "The answers for the pieces are mounted below a new sum unit with renumbered units; whether nothing is lost or mixed up depends on every circuit, number of pieces and choice of impossible pieces.", "anchors": ["src/probabilistic_model/probabilistic_circuit/nx/probabilistic_circuit.py: log_conditional_in_place, add_subcircuit, mount, normalize"]}
{"id": "C97", "title": "Likelihoods after conditioning", "statement": "After conditional(event) on a circuit without shared units, the likelihood of every point (whose values lie in the domains of the variables the event leaves out) is the probability-weighted average, over the simple events, of what pruning makes of the truncated leaf densities. A point has a positive likelihood afterwards exactly if it lies in the event and had a positive likelihood before. Where the remaining weights of every mixture are proportional to the probabilities of its possible components (in particular without mixtures), the likelihood is the old likelihood divided by the probability of the event inside of the event and zero outside.", "quantifier": "every smooth decomposable tree-shaped circuit without zero weights, every union of simple events of positive probability that meets every leaf's support in at most one interval, every point of the domain, every memory state", "why_tests_cant": "Likelihoods at the borders of truncated leaves and outside of the event are measure-zero facts that event probabilities do not show; the claim quantifies over all circuits, events and points.", "anchors": ["src/probabilistic_model/probabilistic_circuit/nx/probabilistic_circuit.py:log_conditional_in_place", "src/probabilistic_model/probabilistic_circuit/nx/probabilistic_circuit.py:log_likelihood", "src/probabilistic_model/distributions/distributions.py:log_conditional_from_simple_interval"]}
{"id": "C98", "title": "Training keeps a layered circuit a distribution", "statement": "fit() of a layered circuit (and of a classification circuit) changes nothing but the trained numbers: the layers, indices, shapes, edges, intervals and minimal scales stay. After any number of epochs every node is still a probability distribution over the same variables, and exactly the points that were possible before are possible. For circuits whose nested products are over initial segments of the variables, training does not fail on rows of the right length, what is maximised is the mean log-likelihood, and the computed likelihood stays normalized. In every epoch exactly the updates of the optimizer, asked with the gradient at the current circuit and its own last state, are added to the trained numbers.", "quantifier": "every smooth decomposable layered circuit with typed inputs, every optimizer and gradient function with finite updates, all data, every number of epochs", "why_tests_cant": "The trained numbers are arbitrary reals after any number of steps of any optimizer; a test sees one run.", "anchors": ["src/probabilistic_model/probabilistic_circuit/jax/probabilistic_circuit.py:fit", "src/probabilistic_model/probabilistic_circuit/jax/inner_layer.py:log_likelihood_of_nodes"]}
{"id": "C99", "title": "Training with labels maximises the likelihood of the labelled class", "statement": "What ClassificationCircuit.fit maximises is the mean log-likelihood of every row under the node of its label.", "quantifier": "all layered circuits, data and labels of the same length with every label below the number of nodes", "why_tests_cant": "A test sees the loss fall and the accuracy rise on one data set; whether the loss is the cross entropy is a statement about all data sets and labels.", "anchors": ["src/probabilistic_model/probabilistic_circuit/jax/probabilistic_circuit.py:ClassificationCircuit.fit"]}
{"id": "C100", "title": "An array of events is evaluated row by row", "statement": "log_likelihood and likelihood of an array with one row per event and one column per variable (in sorted order) return one number per row. The number is what the same call returns for the row alone: it depends neither on the other rows, nor on how the rows are grouped into calls, nor on earlier calls. An array with too few columns is rejected with an IndexError.", "quantifier": "all layered circuits, all arrays with any number of rows and columns, all states left by earlier queries", "why_tests_cant": "the masked numpy code writes rows back by position; a wrong mask or column only shows for particular mixtures of rows, and no test can try all arrays", "anchors": ["src/probabilistic_model/probabilistic_circuit/nx/probabilistic_circuit.py:ProbabilisticCircuit.log_likelihood", "src/probabilistic_model/distributions/distributions.py:log_likelihood", "src/probabilistic_model/distributions/uniform.py", "src/probabilistic_model/distributions/gaussian.py"]}
{"id": "C101", "title": "cdf is the probability of the lower orthant", "statement": "For a circuit over numeric variables, cdf of an array returns for every row the probability of the event that every variable is at most its value in the row: the integral of the likelihood over these points, between 0 and 1, and monotone in the row. A circuit with a symbolic variable raises NotImplementedError.", "quantifier": "all layered circuits over numeric variables, all non-empty arrays of events", "why_tests_cant": "the statement relates two queries for every circuit and every array; tests compare a few numbers", "anchors": ["src/probabilistic_model/probabilistic_circuit/nx/probabilistic_circuit.py:ProbabilisticCircuit.cdf", "src/probabilistic_model/distributions/distributions.py:IntegerDistribution.cdf"]}
{"id": "C102", "title": "Evidence can be entered step by step", "statement": "A program that conditions a model on one observation after the other, each time going on with the model it got, never fails. It ends with None exactly if the observations together have probability zero in the first model, whatever their order. Otherwise every observation has probability one in the last model, and an event has probability zero in it exactly if it has probability zero together with all observations in the first model.", "quantifier": "all tree-shaped smooth decomposable normalized circuits without zero weights and without Dirac leaves (any size and depth), all finite sequences of simple events that restrict each continuous variable to an open interval, all follow-up events", "why_tests_cant": "Each call rewrites the graph; that the result is again a model on which the next call works is an induction over sequences of any length.", "anchors": ["src/probabilistic_model/probabilistic_circuit/nx/probabilistic_circuit.py::ProbabilisticCircuit.log_conditional", "src/probabilistic_model/probabilistic_circuit/nx/probabilistic_circuit.py::ProbabilisticCircuit.log_conditional_in_place", "src/probabilistic_model/probabilistic_circuit/nx/probabilistic_circuit.py::SumUnit", "src/probabilistic_model/probabilistic_circuit/nx/probabilistic_circuit.py::ProductUnit", "src/probabilistic_model/probabilistic_circuit/nx/probabilistic_circuit.py::ProbabilisticCircuit.probability"]}
{"id": "C103", "title": "Samples of a conditioned model satisfy the evidence", "statement": "However often a model was conditioned and however many samples are drawn, with probability one sample() succeeds, every row has a value for every variable, and every row satisfies all observations.", "quantifier": "all tree-shaped smooth decomposable normalized circuits without zero weights and without Dirac leaves, all finite sequences of simple events that restrict each continuous variable to an open interval, all sample sizes", "why_tests_cant": "It is a statement about the law of the random matrix, for every sequence of conditionings; a test sees one draw.", "anchors": ["src/probabilistic_model/probabilistic_circuit/nx/probabilistic_circuit.py::ProbabilisticCircuit.log_conditional", "src/probabilistic_model/probabilistic_circuit/nx/probabilistic_circuit.py::ProbabilisticCircuit.sample"]}
{"id": "C104", "title": "A model can be fitted again", "statement": "Calling fit on a NygaDistribution or JPT that was fitted before gives the model a new object would give for the new data; a fit that fails leaves the object as it was.", "quantifier": "all fitted models, all further data, all histories of fit calls", "why_tests_cant": "The claim is about histories of calls on one object; tests fit new objects.", "anchors": ["src/probabilistic_model/learning/nyga_distribution.py::NygaDistribution.fit", "src/probabilistic_model/learning/jpt/jpt.py::JPT.fit", "src/probabilistic_model/learning/jpt/jpt.py::JPT.c45", "src/probabilistic_model/learning/nyga_distribution.py::InductionStep.induce"]}
{"id": "C105", "title": "The order of the evidence does not matter, and evidence that is known already changes nothing", "statement": "Conditioning a model on observations in one order or in another gives models with the same probabilities. Conditioning on an observation that has probability one already, or once more on one that was entered before, changes no probability.", "quantifier": "all normalized tree-shaped circuits without zero weights, all finite sequences of observations, all permutations and repetitions of them, all queries", "why_tests_cant": "Tests condition a few small circuits once. Whether the result depends on the order is a statement about all pairs of histories, and it needs nested mixtures to show.", "anchors": ["src/probabilistic_model/probabilistic_circuit/nx/probabilistic_circuit.py:ProbabilisticCircuit.conditional", "src/probabilistic_model/probabilistic_circuit/nx/probabilistic_circuit.py:ProbabilisticCircuit.log_conditional_in_place", "src/probabilistic_model/probabilistic_circuit/nx/probabilistic_circuit.py:SumUnit.simplify"]}
{"id": "C106", "title": "Whatever sequence of calls made a model, it is a distribution that agrees with the evidence", "statement": "Start with a normalized tree model without zero weights and without Dirac leaves. For every finite sequence of conditional (on simple evidence about variables that are left), marginal, simplify, normalize, copy and JSON round trips, each on the result of the one before: no call raises; the sequence ends with None exactly if all the evidence together is impossible in the original model or no variable is left; otherwise the model at the end is over exactly the variables that are left, is a probability distribution, gives probability one to everything that was observed about them, and calls a simple event impossible exactly if it is impossible together with all the evidence in the original model. Without evidence in the sequence every event about the variables that are left keeps its probability. Samples from the model at the end agree with everything that was observed about the variables that are left.", "quantifier": "all models of that class, all finite sequences of calls, all simple evidence, all events about the variables that are left, all numbers of samples", "why_tests_cant": "the sequences have unbounded length and every call rebuilds the circuit, so tests only reach a few short sequences", "anchors": ["src/probabilistic_model/probabilistic_circuit/nx/probabilistic_circuit.py:ProbabilisticCircuit.log_conditional", "src/probabilistic_model/probabilistic_circuit/nx/probabilistic_circuit.py:ProbabilisticCircuit.marginal", "src/probabilistic_model/probabilistic_circuit/nx/probabilistic_circuit.py:ProbabilisticCircuit.simplify", "src/probabilistic_model/probabilistic_circuit/nx/probabilistic_circuit.py:ProbabilisticCircuit.normalize", "src/probabilistic_model/probabilistic_circuit/nx/probabilistic_circuit.py:ProbabilisticCircuit.to_json"]}
{"id": "C107", "title": "Factors of a product are independent", "statement": "In a model whose root is a product unit, the probability of two events that speak about different factors together is the product of their probabilities. Conditioning on evidence about some of the factors changes no probability of an event about the others.", "quantifier": "all smooth decomposable normalized circuits with a product unit as root (trees without zero weights for conditioning), all pairs of simple events about different factors, all states of the units", "why_tests_cant": "Independence is a statement about all pairs of events; tests evaluate single events on small circuits.", "anchors": ["src/probabilistic_model/probabilistic_circuit/nx/probabilistic_circuit.py:ProductUnit.probability_of_simple_event", "src/probabilistic_model/probabilistic_circuit/nx/probabilistic_circuit.py:ProbabilisticCircuit.conditional", "src/probabilistic_model/probabilistic_circuit/nx/probabilistic_circuit.py:ProductUnit.simplify"]}
{"id": "C108", "title": "marginal and conditional can be called in either order, and marginals compose", "statement": "Conditioning on evidence about variables that are kept and then marginalising gives the same probabilities as marginalising first and conditioning then. Marginalising onto V and then onto W gives the same probabilities as marginalising onto the variables in both.", "quantifier": "all normalized tree models without zero weights and without Dirac leaves, all sets of variables, all simple evidence about the kept variables, all events about the variables that are left", "why_tests_cant": "The two orders rebuild the circuit in different ways; a test would have to compare both on every circuit, and it needs a nested mixture to see the difference.", "anchors": ["src/probabilistic_model/probabilistic_circuit/nx/probabilistic_circuit.py:ProbabilisticCircuit.marginal", "src/probabilistic_model/probabilistic_circuit/nx/probabilistic_circuit.py:ProbabilisticCircuit.conditional", "src/probabilistic_model/probabilistic_circuit/nx/probabilistic_circuit.py:SumUnit.simplify"]}
{"id": "C109", "title": "marginal, simplify, normalize, copy and JSON change no answer about the variables that are left", "statement": "Take any finite sequence of marginal, simplify, normalize, copy and JSON round trips on a model, at whose end a model is left. Then the likelihood it returns is the integral of the likelihood of the original model over the dropped variables, and is unchanged if none was dropped; every moment, expectation and variance of a variable that is left is the same as in the original model, and dropped variables have none; and rows sampled from it lie in an event about its variables with the same chance as rows sampled from the original model.", "quantifier": "all tree shaped smooth decomposable normalized models without Dirac leaves (numeric leaves for moments), all sequences of calls of any length, all points, orders, centers, events and numbers of rows", "why_tests_cant": "Ranges over all models and all sequences of calls; equality of densities and of laws of samples cannot be observed by running the code on some inputs.", "anchors": ["src/probabilistic_model/probabilistic_circuit/nx/probabilistic_circuit.py::ProbabilisticCircuit.marginal", "src/probabilistic_model/probabilistic_circuit/nx/probabilistic_circuit.py::ProbabilisticCircuit.simplify", "src/probabilistic_model/probabilistic_circuit/nx/probabilistic_circuit.py::ProbabilisticCircuit.moment", "src/probabilistic_model/probabilistic_circuit/nx/probabilistic_circuit.py::ProbabilisticCircuit.sample", "src/probabilistic_model/probabilistic_model.py::ProbabilisticModel.variance"]}
{"id": "C110", "title": "Quantile distributions survive copies and JSON", "statement": "A NygaDistribution over a variable that is written to JSON and read again, or copied, has the same variable, minimal number of samples and minimal improvement and answers every query as before. One that was not fitted yet learns exactly the same from any data as its copy and as what was read back from its JSON. Without a variable, to_json raises.", "quantifier": "all parameters, all circuits of univariate continuous leaves, all data and weights, fitted or not", "why_tests_cant": "Ranges over all learned circuits, all parameters and all data fitted afterwards.", "anchors": ["src/probabilistic_model/learning/nyga_distribution.py::NygaDistribution.to_json", "src/probabilistic_model/learning/nyga_distribution.py::NygaDistribution.parameters_from_json", "src/probabilistic_model/learning/nyga_distribution.py::NygaDistribution.empty_copy", "src/probabilistic_model/probabilistic_circuit/nx/probabilistic_circuit.py::ProbabilisticCircuit.__copy__", "src/probabilistic_model/probabilistic_circuit/nx/probabilistic_circuit.py::ProbabilisticCircuit._from_json"]}
{"id": "C111", "title": "Learned trees know their most likely points", "statement": "If every split of the impurity separates the samples of its two sides by a column (the numbers of one side are smaller than those of the other, or no element occurs on both sides), the circuit that fit returns is deterministic: is_deterministic answers True, and mode returns the largest likelihood any point has together with exactly the points that have it. If equal samples end in different leaves, mode raises IntractableError.", "quantifier": "every non-empty data set with continuous, symbolic and integer columns, every setting, every impurity that keeps its contract, every order of splits, every point of the answer", "why_tests_cant": "the answer depends on all leaves at once and on every point of the sample space; a test sees one tree of one data set and compares a few points", "anchors": ["src/probabilistic_model/learning/jpt/jpt.py: JPT.fit, JPT.c45, JPT.create_leaf_node", "src/probabilistic_model/learning/nyga_distribution.py: NygaDistribution.fit", "src/probabilistic_model/probabilistic_circuit/nx/probabilistic_circuit.py: ProbabilisticCircuit.is_deterministic, ProbabilisticCircuit.mode"]}
{"id": "C112", "title": "Moving and scaling a model moves and scales its answers", "statement": "After translate(t), the probability of every event moved by t is the old probability of the event, the expectations are the old ones plus t, the variances and the moments around moved centers are the old ones, is_deterministic answers as before, and mode returns the old likelihood with the old points moved by t. After scale(t) with positive factors, expectations are multiplied by the factors and variances by their squares.", "quantifier": "every circuit without symbolic variables, every translation and scaling (integers for integer variables), every event, every order and center, every state of the caches", "why_tests_cant": "the answers are combined from all units; a test moves one circuit by one vector and asks a few queries", "anchors": ["src/probabilistic_model/probabilistic_circuit/nx/probabilistic_circuit.py: ProbabilisticCircuit.translate, ProbabilisticCircuit.scale, ProbabilisticCircuit.moment, ProbabilisticCircuit.mode", "src/probabilistic_model/probabilistic_model.py: expectation, variance", "src/probabilistic_model/distributions: translate, scale, moment of each distribution"]}
{"id": "C113", "title": "Fitting makes the data as likely as possible", "statement": "After fit(data), the product of likelihood over the rows of the data is at least as large as under any other distribution of the same kind: any other integer or symbolic distribution, any other table of probabilities of the same shape, and, for a quantile distribution, any other density that is constant on each of the intervals of the result; a point of weight w counts as w observations. Equality holds only if the other distribution has the same likelihoods.", "quantifier": "every non-empty data set, every competing distribution of the same kind; for quantile distributions every minimal number of samples per quantile and minimal improvement and every data set with two different values", "why_tests_cant": "The claim compares the fitted distribution with all of the infinitely many other distributions; a test can only compare with a few.", "anchors": ["src/probabilistic_model/distributions/distributions.py:DiscreteDistribution.fit", "src/probabilistic_model/distributions/multinomial.py:MultinomialDistribution.fit", "src/probabilistic_model/learning/nyga_distribution.py:NygaDistribution.fit"]}
{"id": "C114", "title": "l1 of shallow circuits is the L1 distance", "statement": "For two shallow circuits (a sum of products of leaves) with piecewise constant densities, ShallowProbabilisticCircuit.l1 returns the L1 distance of the two densities, up to twice the tolerance times the size of the support.", "quantifier": "all normalized shallow circuits over any variables with any number of products, all tolerances", "why_tests_cant": "The distance is an integral over all points; tests compare a few circuits with a Monte Carlo estimate. That looking at one centre per pair of products suffices depends on the densities being constant there, for all circuits.", "anchors": ["src/probabilistic_model/probabilistic_circuit/nx/probabilistic_circuit.py:ShallowProbabilisticCircuit.l1", "src/probabilistic_model/probabilistic_circuit/nx/probabilistic_circuit.py:ShallowProbabilisticCircuit.events_of_higher_density_sum", "src/probabilistic_model/probabilistic_circuit/nx/probabilistic_circuit.py:ShallowProbabilisticCircuit.events_of_higher_density_product"]}
{"id": "C115", "title": "Mounting a mixture of a Bayesian network pairs the components and keeps the weights", "statement": "For two mixtures over different variables with the same number of components and normalized weights, u.mount_from_bayesian_network(o) makes u the mixture with the weights of u whose k-th component is the product of the k-th components of u and o: the likelihood afterwards is sum_k w_k p_k(x) q_k(y). (The code takes the logarithm of weights that are logarithms already, so the likelihood is NaN everywhere, or zero for one component.)", "quantifier": "all pairs of valid circuits with sum roots over different variables with equally many components, all points", "why_tests_cant": "Holds for any circuits below the two mixtures, any sharing and any number of components.", "anchors": ["src/probabilistic_model/probabilistic_circuit/nx/probabilistic_circuit.py::SumUnit.mount_from_bayesian_network"]}
{"id": "C116", "title": "Conditioning a learned tree on discrete evidence follows Bayes' rule", "statement": "After learning a joint probability tree from data, conditional(evidence) for evidence about discrete columns returns the probability of the evidence and a model in which every event B has the probability P(B and evidence) / P(evidence). (The code keeps the weights of the leaves that agree with the evidence and only drops the others, so the leaves count with all their training rows instead of the ones that agree.) Evidence that no leaf agrees with has probability zero and yields no model.", "quantifier": "all settings, all data, all split decisions, all evidence about discrete columns and all queries", "why_tests_cant": "The result depends on how the rows fall into the leaves; a test with one leaf per agreeing row cannot show the difference, and no test covers all data and all trees.", "anchors": ["src/probabilistic_model/learning/jpt/jpt.py::JPT.fit", "src/probabilistic_model/probabilistic_circuit/nx/probabilistic_circuit.py::ProbabilisticCircuit.log_conditional_of_simple_event_in_place", "src/probabilistic_model/probabilistic_circuit/nx/probabilistic_circuit.py::ProbabilisticCircuit.log_conditional"]}
{"id": "C117", "title": "Moments of learned trees are the sample moments", "statement": "After fit, moment, expectation and variance of a joint probability tree return, for every integer column, exactly the sample moment, the sample mean and the (population) sample variance of the training data, however the data was split; the mean of a continuous column lies in the range of its training entries and its variance is at least 0 and at most (max - mean) * (mean - min) of its entries, positive exactly if the column is not constant.", "quantifier": "every settings object, every data set of every size, every admissible split search, every order and center", "why_tests_cant": "The exactness has to hold for every split of every data set; a test compares a few trees up to a tolerance.", "anchors": ["src/probabilistic_model/learning/jpt/jpt.py::JPT.fit", "src/probabilistic_model/probabilistic_circuit/nx/probabilistic_circuit.py::ProbabilisticCircuit.moment", "src/probabilistic_model/distributions/distributions.py::DiracDeltaDistribution.moment", "src/probabilistic_model/probabilistic_model.py::ProbabilisticModel.variance"]}
{"id": "C118", "title": "A learned tree considers possible what resembles one of its leaves", "statement": "After fit, a point has positive likelihood exactly if one leaf of the tree holds training rows it resembles in every column: symbols and integers occur among the rows of the leaf, numbers lie between two of their entries. Whatever the random numbers, every row that sample returns resembles the rows of one leaf in this way, so no value is invented and no columns of different leaves are mixed.", "quantifier": "every settings object, every data set of every size, every admissible split search, every point, every outcome of the random choices, every number of samples", "why_tests_cant": "It quantifies over all points, all data sets and all random outcomes; tests look at a few samples of a few trees.", "anchors": ["src/probabilistic_model/learning/jpt/jpt.py::JPT.fit", "src/probabilistic_model/learning/jpt/jpt.py::JPT.create_leaf_node", "src/probabilistic_model/probabilistic_circuit/nx/probabilistic_circuit.py::ProbabilisticCircuit.log_likelihood", "src/probabilistic_model/probabilistic_circuit/nx/probabilistic_circuit.py::ProbabilisticCircuit.sample"]}
{"id": "C119", "title": "A conditioned tree predicts conditional expectations", "statement": "Condition a learned tree on evidence about discrete columns, take the marginal of an integer column without evidence and ask for its expectation: the answer is the conditional expectation of the column given the evidence. All moments and the variance are those of the same conditional distribution. In terms of the data: each leaf that agrees with the evidence contributes the average of the column over its training rows.", "quantifier": "every settings object, every data set of every size, every admissible split search, every evidence about discrete columns, every integer column without evidence, every order and centre", "why_tests_cant": "Predictions are averages over leaves whose number and content depend on data and splits; tests check a few predictions of a few trees and cannot tell a wrong weighting of the leaves from a right one.", "anchors": ["src/probabilistic_model/learning/jpt/jpt.py::JPT.fit", "src/probabilistic_model/probabilistic_circuit/nx/probabilistic_circuit.py::ProbabilisticCircuit.conditional", "src/probabilistic_model/probabilistic_circuit/nx/probabilistic_circuit.py::ProbabilisticCircuit.marginal", "src/probabilistic_model/probabilistic_circuit/nx/probabilistic_circuit.py::ProbabilisticCircuit.moment", "src/probabilistic_model/probabilistic_model.py::ProbabilisticModel.expectation", "src/probabilistic_model/probabilistic_model.py::ProbabilisticModel.variance"]}
{"id": "C120", "title": "No program of queries leads a learned tree out of the range of its training data", "statement": "Run any sequence of conditioning (conditional), marginalisation (marginal), simplification, normalisation, copying and saving/reloading on a learned joint probability tree. As long as a model is returned, every column that is left keeps to its training data: any set that contains all training entries of the column (for continuous columns: everything between two entries) has probability exactly one; every row sampled from the result has its entry in that set; and if only numeric columns are left, expectation and variance can be computed, the expectation lies between the smallest and the largest training entry and the variance is between zero and the product of the distances of the expectation to the two (so at most a quarter of the square of the range).", "quantifier": "every training set, every setting of the learner, every impurity that keeps its contract, every program of any length over the six operations, every evidence about columns that are still left (value sets for discrete columns, open intervals for continuous ones), every enclosing set", "why_tests_cant": "A test tries a handful of programs on a handful of trees; the claim is about all programs of any length and about exact probabilities, not sampled frequencies.", "anchors": ["src/probabilistic_model/learning/jpt/jpt.py::JPT.fit", "src/probabilistic_model/probabilistic_circuit/nx/probabilistic_circuit.py::ProbabilisticCircuit.conditional", "src/probabilistic_model/probabilistic_circuit/nx/probabilistic_circuit.py::ProbabilisticCircuit.marginal", "src/probabilistic_model/probabilistic_circuit/nx/probabilistic_circuit.py::ProbabilisticCircuit.moment", "src/probabilistic_model/probabilistic_model.py::ProbabilisticModel.expectation", "src/probabilistic_model/probabilistic_model.py::ProbabilisticModel.variance"]}
{"id": "C121", "title": "Evidence that some possible point satisfies is never rejected", "statement": "Take a model and a point with a positive likelihood, and run any sequence of conditional, marginal, simplify, normalize, copy and save/reload in which all entered evidence holds at the point and at least one variable is kept. Then no call returns None, the resulting model still gives the point a positive likelihood, and it gives any further evidence that holds at the point a positive probability. In particular, for a learned joint probability tree this is true of every row of the training data.", "quantifier": "every normalized, smooth, decomposable tree-shaped circuit without Dirac leaves and every learned tree; every point of positive likelihood (every training row); every program of any length; every evidence (open intervals for continuous variables, any sets for discrete ones)", "why_tests_cant": "None is returned when a probability is exactly zero somewhere deep in the circuit after many steps; only an argument about all programs and all points can exclude it.", "anchors": ["src/probabilistic_model/probabilistic_circuit/nx/probabilistic_circuit.py::ProbabilisticCircuit.conditional", "src/probabilistic_model/probabilistic_circuit/nx/probabilistic_circuit.py::ProbabilisticCircuit.marginal", "src/probabilistic_model/probabilistic_model.py::ProbabilisticModel.likelihood", "src/probabilistic_model/learning/jpt/jpt.py::JPT.fit"]}
{"id": "C122", "title": "What is possible after a program is what was possible before and agrees with the evidence", "statement": "Run any sequence of conditional, marginal, simplify, normalize, copy and save/reload on a model and let it return a model. A point over the variables that are left has a positive likelihood in the returned model exactly if its missing coordinates can be filled in such that the full point had a positive likelihood in the model at the start and satisfies all the evidence that was entered. For a learned joint probability tree: exactly if the completed point satisfies the evidence and looks, in every column, like the training rows of one leaf; every row the returned model samples has such a completion.", "quantifier": "every normalized, smooth, decomposable tree-shaped circuit without Dirac leaves and every learned tree; every point; every program of any length; every evidence (open intervals for continuous variables, any symbols or integers); all outcomes of the random generator", "why_tests_cant": "Ranges over all models, points and programs of any length, and the completion quantifies over all values of the dropped variables; a test looks at a few points after a few calls.", "anchors": ["src/probabilistic_model/probabilistic_circuit/nx/probabilistic_circuit.py::ProbabilisticCircuit.conditional", "src/probabilistic_model/probabilistic_circuit/nx/probabilistic_circuit.py::ProbabilisticCircuit.marginal", "src/probabilistic_model/probabilistic_circuit/nx/probabilistic_circuit.py::ProbabilisticCircuit.log_likelihood", "src/probabilistic_model/probabilistic_circuit/nx/probabilistic_circuit.py::ProbabilisticCircuit.sample", "src/probabilistic_model/learning/jpt/jpt.py::JPT.fit"]}
{"id": "C123", "title": "support after a program", "statement": "Run any sequence of conditioning (conditional), marginalisation (marginal), simplification, normalisation, copying and saving/reloading on a circuit. If a model is returned and variables are left, its support can be computed, and a point over the variables that are left is in it exactly if it can be completed to a point of the support of the original model that satisfies everything that was observed. For learned trees: exactly if it can be completed to a point that satisfies the evidence and resembles, in every column, the training rows of one leaf of the tree.", "quantifier": "All programs of any length; all layered, smooth, decomposable, normalized trees with positive weights, non-empty product units and valid normalized leaves other than Dirac distributions; evidence that is one open interval per continuous variable and any value set for the others; all points of the domain; any memory of earlier results. Learned trees: all data whose integers are their own hash.", "why_tests_cant": "The support is an event built bottom-up from intersections and unions after arbitrarily many rewritings of the graph; tests compare it for single calls on fixed models, never for every program, every evidence and every point.", "anchors": ["src/probabilistic_model/probabilistic_circuit/nx/probabilistic_circuit.py::ProbabilisticCircuit.support", "src/probabilistic_model/probabilistic_circuit/nx/probabilistic_circuit.py::ProbabilisticCircuit.conditional", "src/probabilistic_model/probabilistic_circuit/nx/probabilistic_circuit.py::ProbabilisticCircuit.marginal", "src/probabilistic_model/learning/jpt/jpt.py::JPT.fit"]}
{"id": "C124", "title": "mode after a program", "statement": "Run any sequence of conditioning (conditional), marginalisation (marginal), simplification, normalisation, copying and saving/reloading on a circuit. If a model is returned and variables are left, mode on it raises IntractableError exactly if is_deterministic answers False there. Otherwise mode returns the maximum of the likelihood of that model, which is positive, with exactly the points that attain it, at least one; and each of these points that is in the domain can be completed to a point that is possible in the original model and satisfies everything that was observed. For learned trees: each of them can be completed to a point that satisfies the evidence and resembles, in every column, the training rows of one leaf of the tree. If nothing was observed and no variable dropped, and mode answers for both models, it reports the same maximum and the same points for both.", "quantifier": "All programs of any length; all layered, smooth, decomposable, normalized trees with positive weights, non-empty product units and valid normalized leaves other than Dirac, normal and truncated normal distributions; evidence that is one open interval per continuous variable and any value set for the others; any memory of earlier results. Learned trees: all data whose integers are their own hash, without Dirac leaves.", "why_tests_cant": "The most likely state given evidence is asked of a graph that was rewritten arbitrarily often; tests look at the mode of single fixed models and cannot cover every program, nor that no more likely point exists.", "anchors": ["src/probabilistic_model/probabilistic_circuit/nx/probabilistic_circuit.py::ProbabilisticCircuit.mode", "src/probabilistic_model/probabilistic_circuit/nx/probabilistic_circuit.py::ProbabilisticCircuit.is_deterministic", "src/probabilistic_model/probabilistic_circuit/nx/probabilistic_circuit.py::ProbabilisticCircuit.conditional", "src/probabilistic_model/probabilistic_circuit/nx/probabilistic_circuit.py::ProbabilisticCircuit.marginal", "src/probabilistic_model/learning/jpt/jpt.py::JPT.fit"]}
