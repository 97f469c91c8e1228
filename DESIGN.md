# Formal model of probabilistic_model in Lean 4

## 1. What is modelled, and how

The repository is a Python library for probabilistic circuits (networkx DAGs of sum, product and leaf units),
univariate distributions, multinomial tables, Bayesian networks, structure learners (Nyga, JPT, random region graphs)
and a layered (jax) re-implementation. The model is a set of Lean definitions that mirror the Python functions branch by
branch; each definition cites the file and lines it models.

| Layer | Lean modules | Python |
|---|---|---|
| log numbers | `Verif/Num/*` | `np.log`, `np.exp`, `scipy.special.logsumexp` as used by the code |
| random events | `Verif/Events/*` | the parts of the external `random_events` package the code calls |
| distributions | `Verif/Dist/*` | `distributions/*.py` |
| graphs and circuits | `Verif/Graph/*`, `Verif/Circuit/*` | `probabilistic_circuit/nx/*.py` and the parts of networkx it calls |
| objects and aliasing | `Verif/Heap/*` | the distribution objects and probability dictionaries behind circuits; copy, conditional, marginal and in-place edits on them |
| learners | `Verif/Learn/*` | `learning/*` |
| Bayesian networks | `Verif/BN/*` | `bayesian_network/*` |
| layered circuits | `Verif/Jax/*` | `probabilistic_circuit/jax/*` |
| specifications | `Verif/Spec/*` | what the English property means (measures, integrals, sums), no model helpers |
| property theorems | `Verif/Props/*` | one file per property (or group), theorems and non-vacuity examples |

Method in one paragraph. A circuit is an insertion-ordered graph `Graph` (nodes with a kind, edges with an optional log
weight), exactly the data networkx stores. A query pass is a fold over `reversed(bfs_layers)` that reads and writes the
mutable per-unit memory `result_of_current_query`; `None` read as a number is an error value. The mathematical meaning of
a circuit is *any* function assigning to each unit a value that satisfies the unit's defining equation ("leaf density",
"weighted sum of the children", "product of the children"); on acyclic graphs it exists and is unique. One refinement
theorem says that a pass over a layered circuit returns the meaning of the root, whatever the memory held before; the
query properties are corollaries over different value domains (densities, probabilities, event sets, modes, moments).
Properties of in-place edits (simplify, conditional, marginal, normalize, copy, JSON) say that the meaning of the edited graph
is related to the meaning of the original one.

## 2. Trusted base

* Lean 4.33.0's kernel. Every property theorem depends on at most `propext`, `Classical.choice`, `Quot.sound`
  (checked with `#print axioms` in `Verif/Audit.lean`). No axioms, `sorry`, `native_decide` or `bv_decide`.
* Mathlib's definitions of reals, `exp`, `log`, measures and integrals, which appear in statements.
* The reading of the Python code: nothing ties the model to the code mechanically. Each definition cites lines.
* Idealisations, stated again at the definitions:
  * floats are real numbers (no rounding, overflow or NaN); `-inf` log weights are modelled (`LogP.negInf`);
    `+inf` densities (`density_cap = inf`) are not;
  * `scipy.special.logsumexp` is log of the sum of exponentials, `-inf` if all arguments are `-inf`;
  * networkx `DiGraph` is an insertion-ordered node list and an insertion-ordered edge list without duplicate edges;
    `bfs_layers`, `descendants`, `in_edges`, `add_edge` (overwrites the data of an existing edge), `remove_node` behave
    as in networkx 3;
  * `random_events`: a simple interval is lower/upper/left/right with the usual membership; composite sets are disjoint
    lists; `fill_missing_variables` adds the whole domain; `&`, `|`, `is_empty` are the set operations;
  * numpy random functions are arbitrary outcome functions within their documented range (all outcomes quantified).
* Not modelled: plotting, drawio export, gradient training (`fit` in jax), wall-clock/performance, float rounding,
  the `jpt` impurity C extension (an external split oracle with its contract as hypothesis).
* Not modelled because, as far as reading the code shows, every call raises: `SumUnit.subcircuit_index_of_samples`
  (`nx/probabilistic_circuit.py:622`; leaf units return `None` from `log_likelihood` and inner units have no such method),
  `NygaDistribution.all_union_of_mixture_points_with` and `event_of_higher_density` (`learning/nyga_distribution.py:449-500`; the leaf
  units have no `interval`).  No theorem is stated about them.
* Not modelled, small: `SumUnit.latent_variable` (`nx/probabilistic_circuit.py:373`), `infer_signature`
  (`interfaces/mlflow_integration.py:35`).

## 3. Plan per property

| Property | Modelled | Proof |
|---|---|---|
| C01 | layered log pass over the graph, `LogP` arithmetic | refinement theorem with the log value domain; `exp` is a homomorphism |
| C02 | same pass, error values, stale memory | refinement for layered graphs; negation by a concrete 4-unit circuit with an edge that skips a layer; `_partial` |
| C03 | memory threaded through a list of queries | induction over the history; negation witness for non-layered circuits |
| C04 | probability pass, leaf cdfs | induction over the rank of the DAG, Fubini (`lmarginal_union`) at products, linearity at sums |
| C05, C06 | probability pass | consequences of C04 plus direct induction |
| C07, C08 | conditional pass, node removal, simplify, normalize | graph rewriting preserves the defining equations; negation witness (weights of a sum unit are never re-weighted); `_partial` for circuits where surviving siblings are equally likely |
| C09 | `Heap/Basic`: heap of distribution objects and probability dictionaries, circuits whose leaves are references, `copy`/`conditional`/`marginal` and in-place edits as heap computations, histories of calls of a user with several circuits | frame lemmas (`Heap/Frame`, `Heap/Sim*`, `Heap/World`): every call changes only objects of the circuit it edits; the heap computations refine the value-level ones; negation witness `leaf.distribution.normalize()` on a copy (shared dictionary) |
| C10, C11 | simplify and marginal on the graph | each rewriting step preserves the defining equations when units have one parent; negation witness with a shared grandchild; `_partial` |
| C12 | normalize | algebra in `LogP` |
| C13–C15 | support / determinism / mode passes | rank induction on sets of points |
| C16, C17 | moment pass | rank induction with integrals; negation witness for Dirac moments |
| C18 | request lists, arbitrary multinomial counts and shuffles | invariant: the requests at a unit are disjoint row intervals; multiset counting |
| C63 | the same pass with random counts, shuffles and leaf values as expectation operators | generating function of the multinomial counts, induction over the pass; negation witness with exact rational chances (three samples of a product of two mixtures) |
| C19, C20 | to_json/_from_json/__copy__ as graph renamings | isomorphism of graphs, then equality of meanings |
| C21 | root | counting / finite descent |
| C22 | is_decomposable | negation witness (it filters leaves for product units, hence always True); exactness of the unit-level check |
| C23, C24 | leaf and circuit translate/scale | algebra; negation witnesses (single-leaf circuit, Dirac scale, negative factors) |
| C25 | as_deterministic_sum, from_mixture | list induction |
| C26, C27 | mount, add_subcircuit, mount_with_interaction_terms | frame lemmas for the defining equations |
| C28, C29 | uniform distribution | algebra; `integral_pow`-style lemma |
| C30–C33 | discrete distributions on association lists | list induction; negation witness for unsorted keys in cdf |
| C34–C36 | multinomial tables as functions on index lists | finite sums; negation witness for permuted argument order |
| C37, C38 | Gaussian moments, samplers as loops over proposal streams | binomial theorem and Gaussian integrals; loop invariants |
| C39, C40 | InductionStep and the deque loop | loop invariant: queue and emitted leaves partition the index range |
| C57 | compute_best_split, improvement_is_good_enough | fold invariant (maximum of what was seen); invariant of the emitted leaves |
| C58 | construction without probabilities, normalize | counting cells |
| C41, C60, C61 | c45 queue with an external split oracle, create_leaf_node | loop invariant: queue and leaves partition the samples; Kraft sum for the depth; negation witnesses (the integer −1; `max_leaves` is never read) |
| C59 | the queue as an attribute of the class | a successful fit leaves it empty; negation witness after a failed fit |
| C42 | array_split, recursive_split | list partition lemmas, loop invariant |
| C43 | encode/decode | field algebra |
| C44, C45 | tables, forward pass, circuit construction | induction over the network |
| C46–C49 | layer evaluation, sparse index helpers, slices | finite sums, list induction; negation witness for three rows |
| C62 | nested layers with the column selection of product layers | induction over the layers; negation witness: a product below a product reads the wrong column |
| C50 | uniform_measure_of_(simple_)event | algebra; for unions of boxes through C08_union_partial and, for likelihoods, C97_bayes; negation witness for unions of intervals of different length |
| C51, C52 | Gaussian and truncated Gaussian conditionals and moments | conditional measure; substitution u = z²/2 turns the truncated moments into Gamma integrals |
| C53 | Robert's sampler for one-sided truncation, cut at 10 standard deviations | exact characterisation of the reachable values; negation witness beyond the cut |
| C54 | replace_discrete_distribution_with_deterministic_sum | the leaf is gone when its predecessors are asked for: raises on every circuit with a discrete leaf; the state left behind keeps all likelihoods (C25) |
| C55 | multinomial `fit` | the writes of `np.unique`'s rows as a fold; counting |
| C64 | `from_uniform_mixture`: sorted borders, pieces, weights by `probability_of_simple_event` | the density is constant between borders (induction over the circuit), so each piece gets density times length; C04 for events |
| C65 | `fully_factorized`: one leaf per variable under a product unit | value of an assembled product (`denotes_attach_prod`) and C01; the negation by a witness with variance 4 |
| C66 | `ConditionalProbabilisticCircuit`: units as objects that `mount` moves to another circuit; joint distribution, forward pass | value of an assembled mixture (`denotes_joint`), C01 and the soundness of conditioning; the negation by a witness with two passes |
| C67 | `from_nx`: levels of the circuit from the bottom up, grouped by unit type and scope, one layer per group; sets are traversed in an arbitrary order (`shuffle`) | induction over the levels: each created layer has the values of its units (`levels_covered`, `fromNx_spec`), then C62 for the evaluation of the layers and C01 for the circuit; the negation by a Gaussian leaf |
| C68 | `to_nx`: one unit per node, in the order of creation, then the edges of each layer, then normalization of its sums; the progress bar is the fact whether there is one | the built circuit in closed form (`toNx_eq`, induction over the layers with the edges of a layer as ranges of unit numbers), from it well-formedness, scopes and the values of the layers (`value_circuitOf`), then C01; the negation by a dense sum layer |
| C69 | `to_json`/`_from_json` of the layer classes and of the layered circuit over JSON values; arrays are lists, sparse arrays are their shape, data and indices | structural induction over the layers, with a round trip lemma per kind of field |
| C70 | `ClassificationCircuit.as_probabilistic_circuit`: copy, shift of the variable indices, class layer, product layer and root | the new root's meaning by computation (`classRoot_value`), the shift by structural induction, evaluation by C62; the negations by a discrete layer and by a class that sorts first |
| C56 | event probability of the circuit of a table | leaf values 0/1, sum over cells; negation witness for a symbol whose hash is not its position |
| C71 | the layers of C62 with a reference measure per variable (lengths, or counting of the states) | induction over the layers: a weighted mean of densities over the same variables and a product of densities over disjoint variables are densities (Tonelli, `lmarginal_union`); input nodes by integration; the negation by nested products of intervals |
| C72 | region_graph.py 153-227: root, bfs order, input/sum/product layers of the nodes with the random parameters as arbitrary functions of the shape; Learn/RegionCircuit | shape invariant of the random graph (Learn/RegionTree), children-first order of the breadth-first layers, every node gets a regular, smooth, decomposable layer over its variables (Learn/RegionCircuitLemmas, RegionCircuitMain), mass by C71 |
| C73 | MonteCarlo/Estimator.lean: l1Metric as a function of the two lists of samples; MonteCarlo/Circuit.lean: the same for circuits | product measure of the n samples, linearity of the integral, strong law of large numbers |
| C74 | MonteCarlo/Estimator.lean: l1Uniform as a function of the samples; MonteCarlo/Circuit.lean: the whole method for two circuits | expectation of a mean; for circuits with C13 (support), C50_union_density_partial (the model is uniform) and C04 (likelihoods are densities); exact expectation by independence of the first sample and the others; negation witness |
| C75 | BN/FromTable.lean: from_multinomial_distribution on top of the table model (conditional, marginal) | C35 and C34 for each state, loop over the states; negation witness |
| C76 | `shallowing`, `remove_node_and_successor_structure`, `from_probabilistic_circuit` on the graph model, new units get fresh numbers | induction on the depth: the subcircuit of every unit becomes a sum of products of leaves; loop invariant over the children; distributivity for the value |
| C77 | `JPT.__init__`, `set_targets_and_features`, `to_json`, `parameters_from_json`, JSON of the variables (`Learn/Config`) | sorted lists of variables with different names are determined by their members; dictionaries with different keys are their items |
| C78 | `empty_copy`, `fit` with its parameters (`Learn/Config`, `Learn/ConfigFit`) | exact parameters of the copy; fits do not look at `max_leaves`; a counterexample with C41 and C61 |
| C79 | `construct_impurity` (`Learn/Config`) | index lists of filtered enumerations; `tuple.index` |
| C80 | `preprocess_data`, `infer_variables_from_dataframe` (`Learn/Preprocess`) | induction on the loop over the variables; sums of squares; sorted lists of differences |
| C81 | `preprocess_data`, `SymbolicDistribution.fit` (`Learn/Preprocess`, `Dist/Discrete`) | positions in the domain and C32 |
| C82 | `==` of circuits, units and distributions (`Circuit/Equality`) | induction on the rank of acyclic graphs; a specification of places |
| C83 | `to_json`, `_from_json`, `__copy__`, `__eq__` of multinomial distributions (`Dist/MultinomialJson`) | induction on the shape |
| C84 | `update_variables` (`Circuit/Rename`) | a change of the leaves that keeps the graph; queries as evaluations |
| C85 | `fit` on a data frame (`Learn/FrameFit`), from the inference of the variables to the likelihood | composition of C41, C60, C79, C80 and C81 |
| C86 | `fit` (C41) and `probability` (C04) of the learned tree (`Learn/JptMarginal`) | the circuit denotes the mixture of its leaves with the shares of rows as weights; each column of a leaf has the frequencies of its rows; the leaves partition the rows |
| C87 | `JPT.marginal` on top of the models of `fit`, `marginal`, `from_mixture`, `from_uniform_mixture` | the learned tree is a normalized tree-shaped circuit, hence its marginal has its probabilities (C10); C25 and C64 for the simplification; C86 for the frequencies |
| C88 | conditional pass, node removal, simplify, normalize (as for C07/C08) | `simplify` commutes with rescaling the weights of all units; with the scales of the remaining weights the pruned circuit has normalized sums, so that the theorem on `simplify` for normalized circuits applies, and `normalize` undoes the scales |
| C89 | `CouplingCircuit` with an arbitrary conditioner: flattening order, slices, unflattening, evaluation | the assembled circuit has the template's structure and exactly the given parameters (mutual induction on layers), then C71 |
| C90 | `subgraph_of` as the induced subgraph of the unit and its descendants | reachability of breadth-first search, induced subgraphs, C01 |
| C91 | `nodes_weights` with its queue, seen set and dictionary | invariant of breadth-first search on graded graphs: when a unit is visited, all its parents were visited |
| C92 | `__hash__` of the distributions; Python's hash of tuples is an arbitrary function | case analysis; dictionaries that compare equal with the same key order are equal; the negation by two coins |
| C93 | `remove_rows_and_cols_where_all`, `embed_sparse_array_in_nan_array`, `sample_from_sparse_probabilities_csc` on lists of rows | induction on the masks, the scatter updates and the rows |
| C94 | `is_valid`: `nx.is_directed_acyclic_graph` as topological generations, `nx.is_weakly_connected` as breadth-first search | well-founded minimal elements, growth of the component; `C21` and reachability from the root |
| C95 | `conditional`, `probability` on trees | support of the pruned circuit: a possible unit has a positive pruned value exactly if the intersection is possible (induction over the circuit); unions through C96 |
| C96 | `log_conditional_in_place` for several simple events: `mount`, `add_subcircuit`, `normalize` | the loop that mounts the answers builds a sum unit over disjoint copies (induction over the events); normalizing gives the weights; C88 for every piece |
| C97 | `conditional`, `likelihood` on trees | pointwise lemma on the densities of conditioned leaves; C88/C96 generalised from leaf probabilities to arbitrary leaf values; Bayes' rule where the remaining weights are proportional |
| C98 | jax `fit`, `eqx.apply_updates`, batches; gradients and optimizer are parameters | the skeleton (everything that is not trained) is invariant under updates; structure predicates, scopes and signs of values depend only on the skeleton; induction over epochs; C71; `C98_run`: the result is the last circuit of a training run (Spec/FitRun), which is unique |
| C99 | the objective of `ClassificationCircuit.fit` for integer labels (boolean labels raise under jit) | exact value of the objective; negation witness with two classes and two rows; invariance under other rows and permuted labels |
| C100 | `Dist/Batch.lean` (masked leaf queries on a column), `Circuit/Batch.lean` (arrays, column lookup, stacking) | each masked query is shown to be a row-wise map; the pass on arrays then has the meaning assembled from the single-row meanings (refinement theorem of the passes); too few columns: every unit obeys its rule or raises IndexError |
| C101 | `Graph.cdfBatch`, `Leaf.cdfBatch` | leaf cdf = mass of the half line; circuit value of these masses = probability of the lower orthant (C04/C05 infrastructure) |
| C102 | `Spec.observe`: a program that calls `conditional` on one observation after the other; `Spec.together`: the observations as one event; `EvidenceModel`: the class of models (trees, normalized, no Dirac leaves) | `evidence_step`: the class is closed under `conditional` (uses C88 and that every leaf of the result is a truncated leaf of the model); induction over the observations |
| C103 | `sampleR` on the result of `observe` | no leaf of the result has mass outside of the evidence (`LeavesIn`), so the evidence has probability one and C63 gives the chance of all rows |
| C104 | `Learn.Refit`: `fit` of both classes with the circuit of the object as an argument and the circuit that is left behind (also after an exception) as a result; `fitOn_new` shows that for a new object it is the `fit` of C39/C41 | invariant: two units without parents are never connected, by induction over the loop and over the history of calls |
| C105 | `ProbabilisticCircuit.conditional` called again and again in different orders | full statement refuted with a nested mixture; certain and repeated evidence by the pruned semantics of C88 with all units certain |
| C106 | programs that call conditional, marginal, simplify, normalize, copy and the JSON round trip one after the other | each call keeps the class of models (`evidence_step`, `sameLaw_marginal`, `sameLaw_simplify`, `sameLaw_renamed`), then induction on the sequence |
| C107 | probability and conditional of circuits with a product root | values of the units by induction on the circuit; a factor without evidence has probability one and is left untouched by pruning |
| C108 | histories of conditional and marginal | C106 applied to both histories; the counterexample computes both results on a nested mixture |
| C109 | histories (C106) without evidence; `likelihood`, `moment`, `expectation`, `variance`, `sample` of the model before and after | every call keeps the value of the circuit for all leaf maps that are one on dropped variables (`SameLaw.value`, induction over the history); moments are such values (`moment_value`); densities by integrating with point masses at the kept variables (`lmarginal_off`); samples by C63 |
| C110 | `NygaDistribution` as circuit plus parameters (`Learn/NygaObject.lean`): `to_json`, `parameters_from_json`, `empty_copy`, `copy`, `fit` | the extra entries do not disturb the reading of the circuit; then C19, C20, C39 and C104 |
| C111 | the tree that `fit` builds (C41), `is_deterministic` (C14) and `mode` (C15); the external impurity is a function whose splits separate their sides by a column | an invariant of the queue: any two ranges of different leaves are told apart by some column; determinism goes through the attaching of the columns and leaves; a point with positive density lies between two entries or is the hash of one, so no two leaves share one; then C15 |
| C112 | `Leaf.translate`, `Leaf.rescale`, `Graph.translate`, `Graph.rescale` with `probabilityOfSimpleEvent`, `moment`, `expectation`, `variance`, `isDeterministic`, `mode` | each leaf answers for the moved set and the moved center as before (`prob_moved`, `moment_moved`); mixtures and products of affine images are affine images (`value_affine`); the possible points move (C14, C15) |
| C113 | the fitted distributions of C32 (`Dist/Leaf.lean`), C55 (`Dist/Multinomial.lean`) and C39/C40 (`Learn/Nyga*.lean`) | `Dist/FitLemmas.lean`: if the mean of q/p over the data is at most one, the data is at least as likely under p (t ≤ exp(t - 1), with equality only for t = 1); relative frequencies make that mean the mass of q on the data; for quantiles the mass is the integral over the disjoint intervals |
| C114 | `l1`, `events_of_higher_density_sum/product` (`Verif/Circuit/ShallowL1.lean`) on top of subgraphs, supports, likelihood and probability; unions and differences of events as sets of points | the supports of the products are boxes whose centre lies in them; determinism makes the density constant on each box; the event lies between {p − q > tolerance} and {p > q}; partial: needs determinism (`C114_full_false`) |
| C115 | `SumUnit.mount_from_bayesian_network` with NaN weights as a flag (`Circuit/Join`, `JoinLemmas`) | invariant of the loop over the pairs of components, value of the resulting circuit by induction over the graph (`Props/MountNetwork`) |
| C116 | `JPT.fit` and `ProbabilisticCircuit.conditional` as in C41 and C88 | the pruned circuit of C88 evaluated on the learned tree; below the root nothing is reweighted because sums over leaves only occur for continuous columns, which the evidence does not mention; counterexample by running the modelled loop on three rows |
| C117 | fit, moment, expectation, variance of learned trees | moment query as a circuit value with leaf moments for one variable and 1 elsewhere; mixture of leaf sample moments with weights proportional to the leaf sizes |
| C118 | fit, likelihood and sample of learned trees | the tree's likelihood is a sum of products of column likelihoods; a column is positive exactly inside the range (C39 covering, C40 positive weights) or at the entries; samples have positive likelihood (C18) |
| C119 | fit, conditional, marginal, moment, expectation and variance of learned trees | a learned tree is an evidence model (C102); conditioning keeps every leaf on the entries of the data, the values of a circuit are linear in the leaves of one variable, so the moment is a finite sum of point probabilities, which C116 gives |
| C120 | learned trees (JPT.fit), then any list of conditional / marginal / simplify / normalize / copy / reload | `Verif/Props/JptRange.lean`: the leaves of the tree carry no mass outside an enclosing set (`tree_encloses`, column by column); every operation only ever returns leaves that keep this (`history_spec`); probability, sampling and moments then follow by induction over the circuit (`Verif/Circuit/MomentRange.lean`); specification in `Verif/Spec/JptRange.lean` |
| C121 | likelihood, probability and histories of conditional / marginal / simplify / normalize / copy / reload, on circuits and on learned trees | `Verif/Props/Consistent.lean`: where the density of a leaf is positive, its law gives every neighbourhood a positive probability (`newLeaf_density`), which carries over to the root (`circuitValue_null`); conditioning and marginalisation keep the likelihood positive (`C97_support`, `plain_positive`); induction on the program |
| C122 | likelihood, sample and histories of conditional / marginal / simplify / normalize / copy / reload, on circuits and on learned trees | `Verif/Props/Posterior.lean`: a leaf has a point of positive density in its domain (`leaf_possible`), so a point of positive marginal density can be completed (`exists_extension`, induction over the circuit, products glue the completions of their children); backwards through the program (`history_back`), forwards by C121; `C118_possible_partial` for learned trees |
| C123 | any list of conditional / marginal / simplify / normalize / copy / reload on a circuit, then support | `Verif/Props/PosteriorSupport.lean`: every operation keeps every unit non-empty (`Occupied`, carried through `SameLaw`, `evidence_step` and `history_spec`), so that C13 applies to the result; the points are those of C122 |
| C124 | any list of conditional / marginal / simplify / normalize / copy / reload on a circuit, then is_deterministic and mode | `Verif/Props/PosteriorMode.lean`: no operation makes a leaf normal (`NoNormal`, carried through `evidence_step` and `history_spec`), so that every leaf of the result attains its maximum and C14 and C15 apply to it; where the points come from is C122; a concrete deterministic model whose marginal is refused (`C124_marginal_intractable`) |

## Tests against wrong programs: what the log shows

Each line of `seeded/LOG.jsonl` is one edit of a model definition and the declarations that no longer compiled. The field `evidence` says how
much this shows:

* *statement refuted*: the negation of the property's statement was proved for the edited model. Only this shows that the statement rejects
  the bug.
* *the proof of a property theorem failed*: the statement or merely its proof script may be at fault.
* *only the proof of a helper lemma failed*: the build stopped before the property theorem. This is the case for most lines. It does not show
  that the property theorem is false of the edited program.
* *survived*, *false kill*, *equivalent*: as the line explains.

A failed proof is therefore weak evidence. One false kill was found: C09 kept circuits as values, so a `conditional` or `marginal` that
forgot its copy was invisible to the theorems although a helper lemma failed. The model was changed so that in-place methods write to the
circuit object they are called on; `C09_copy_needed` shows that the copy matters. Within one call of `log_conditional_in_place` with several
simple events the copies of the circuit are still passed as values, so a missing copy there cannot be expressed.

## 4. Where the code disagrees with the property

Each line names the theorem that proves the negation on a concrete input (`…_full_false`) or for a whole class of inputs.

* C02: edges that skip a layer make a pass read a unit before it was computed (`C02_full_false`).
* C07/C08: the conditional of a sum unit keeps its prior weights; composite conditionals weight pieces by pᵢ² ; a leaf that splits into
  several pieces gets probabilities as log weights (`nx/distributions/distributions.py:63`).
* C09: the copy of a discrete distribution shares its dictionary; `leaf.distribution.normalize()` on a copied circuit changes the original
  (`C09_full_false`).
* C10, C11: marginal of circuits with shared leaves; simplify overwrites shared edges, orphans units behind zero weights and may lose
  the layering.
* C15: the mode of a truncated Gaussian at an open border.
* C17: Dirac moments of order ≥ 2.
* C22: `is_decomposable` of a circuit is always `True`.
* C23, C24: translate/scale do nothing on single-leaf circuits; Dirac scale adds; Gaussian scale is shadowed by an attribute; negative
  factors invert uniform distributions.
* C25: the integer value −1 returns from `from_mixture` as −2 (`hash(-1) == -2`).
* C30, C32: unsorted integer dictionaries in `cdf`; `fit` on −1.
* C34: `marginal` labels the axes in the order of the request, the entries stay in the order of the table (`C34_full_false`).
* C56: the circuit of a table is keyed by positions, events by hashes (`C56_full_false`).
* C38, C53: `sample` may return the excluded lower border; one-sided truncation never samples beyond 10 scales from the border.
* C63: a sum unit hands out its rows in contiguous blocks, so from three samples on a single row does not have the law of the circuit, not even
  on average over the rows (`C63_full_false`, `C63_average_false`).
* C39, C40: `min_samples_per_quantile=0` reads behind the data (`C39_zero_samples`); `weights` are neither sorted nor merged when the
  data are (`C40_full_false`).
* C59: `JPT.c45queue` belongs to the class; after a failed fit the next tree gets leaves of the other data (`C59_stale_leaf`).
* C60: a tree learned from the integer −1 gives it the likelihood 0 (`C60_full_false`).
* C61: `max_leaves` is stored but never read (`C61_full_false`).
* C42: random region graphs with childless partitions.
* C47, C48: BCOO indices from three rows on; `shrink_index_array` merges negative indices.
* C62: a product layer below another product layer indexes an array that is already sliced (`C62_full_false`).
* C45: the message of a node forgets how likely its evidence was under the different states of the parent (`C45_full_false`).
* C27: an own state that the interaction model gives probability 0 is skipped, so it keeps its old edge and weight and the result is not the
  stated mixture (`C27_zero_state_kept`; excluded by the hypothesis of `C27_interaction`).
* C44: the sum unit of a node lists the states in the order of its message, the interaction term reads positions as states; a zero in the
  first row of a table permutes them (`C44_full_false`). A network of one node has no circuit (`C44_single_node`).
* C64: a circuit that is a single uniform leaf has no `leaves`; the Nyga distribution made from it cannot be evaluated (`C64_single_leaf`).
* C65: `fully_factorized` passes the requested variance as the scale (standard deviation) of the normal distribution, so the circuit has the square of the requested variance (`C65_factorized_partial`, `C65_full_false`).
* C66: `ConditionalProbabilisticCircuit.forward_pass` mounts the root units of the node's own distributions into the joint circuit and conditions that circuit in place. A second pass with the same event gives another probability (`C66_full_false`); an impossible event raises (`C66_impossible`), while a node with a table gives 0.
* C67: `GaussianLayer` adds `min_scale = 0.01` to the scale that `from_nx` passes, so the layered model has another density (`C67_full_false`). A level whose first unit is a leaf and that contains a sum or product makes the conversion raise an AttributeError (`C67_leaf_first`). Below products, units over the same variable with different types give a KeyError; truncated Gaussians are converted to Gaussians without the truncation (`C67_truncation_lost`), and because the class test is `isinstance` they are put into two layers if the level also has Gaussian units, so that their weight counts twice (`C67_counted_twice`); there is no layer for integer leaves (`C67_integer`); the borders of closed uniform leaves move to the next float. `C67_converted` states the density that the layers have for all leaves with a layer, `C67_support` that the rows of density zero stay the same without truncated Gaussian leaves. `ConvertibleLeaf` and `ConvertibleLevel` are the cases without a change.
* C68: `DenseSumLayer.to_nx` (`inner_layer.py:525-529`) passes `exp(log_weight)` as `log_weight`, so weights 1 : 3 become e : e³ (`C68_full_false`). `DiracDeltaLayer.to_nx` (`input_layer.py:158`) calls `progress_bar.update` without asking whether there is one, so layers with a Dirac node cannot be converted without a progress bar (`C68_dirac`). A node of a child layer that no edge refers to becomes a second root; excluded by `Tidy`.
* C70: `DiracDeltaLayer` and `DiscreteLayer` do not define `__deepcopy__`, so classification circuits with them cannot become joint circuits (`NotImplementedError`, `C70_full_false`). If the class variable sorts before another variable, the variables below the old root are no longer an initial segment, and the slicing of C62 reads the wrong columns (`C70_class_first`).
* C54: `replace_discrete_distribution_with_deterministic_sum` raises `NetworkXError` on every circuit with a discrete leaf.
* C50: the length of each interval of a continuous variable is used as the logarithm of its weight, so `[0,1] ∪ [2,4]` gives `[0,1]` the probability `1/(1+e)` (`C50_full_false`). An integer interval such as `[1,3]` counts as its lower border only (excluded by `BoundedSet`).
* C71: because of the nested slicing (C62), the likelihoods computed by a circuit with nested products need not integrate to one; `C71_full_false` has a circuit of three intervals whose likelihood is zero everywhere.
* C72: with fewer than 2*k^depth variables the random splits reach single variables early, these regions keep a partition without children, and `as_probabilistic_circuit` raises an AssertionError. The circuits that are created for depth >= 1 compute likelihoods that ignore variables, because nested product layers index their already sliced input (C62).
* C73: with the default tolerance 10e-8 densities that differ by less than the tolerance everywhere are reported at distance 0, whatever their L1 distance (`C73_full_false`).
* C74: `l1_metric_but_with_uniform_measure` divides by the density of the first sample; where `uniform_measure_of_event` is not uniform (C50), the estimate is biased for two or more samples (`C74_expected`, `C74_full_false`).
* C75: `from_multinomial_distribution` fails with `AttributeError` if a parent state is impossible (`C75_full_false`), and keys its rows by positions instead of hashes (`C75_other_symbols`).
* C76: `shallowing` (nx/probabilistic_circuit.py:1347, 1371) reads `.get("weight", 1)` although the weights are stored under `log_weight`. All weights below the outermost unit are lost and the default `1` is used as a log weight, so the density of the shallow circuit is not normalized: already for a mixture of two leaves it is e times the density of the circuit (`C76_full_false`, `C76_scale`). Form and support are right (`C76_shallow_partial`, `C76_support_partial`).
* C78: `empty_copy` drops `max_leaves` and replaces a fractional `min_samples_leaf` by a number of samples; the copy of a JPT that has not learned yet allows leaves with one sample.
* C80: a constant column of a scaled variable (and a data frame with one row) has standard deviation 0 (nan); the preprocessed column is nan.
* C81: `preprocess_data` writes the position of an element in the domain, `SymbolicDistribution.fit` compares it with the value of the enumeration; for enumerations that do not count from 0 the probabilities go to wrong elements.
* C82: `Unit.__eq__` compares the class and the subcircuits; leaves have none, so circuits with the same shape and weights but different distributions in their leaves compare equal.
* C83: `__eq__` uses `np.allclose`, so different tables compare equal, and equality is neither symmetric nor transitive; the documentation says the probability mass functions are compared.
* C84: `update_variables` of a circuit that consists of one leaf does nothing, because `LeafUnit.leaves` is the empty list of the leaves below it.
* C85: a data frame with the integer -1 gives a model under which the rows with it have likelihood zero (integers are stored by their hash, and the hash of -1 is -2).
* C86: a column with the integer -1 gives -1 the probability 0, whatever its share of the rows (integers are stored by their hash, and the hash of -1 is -2).
* C87: `JPT.marginal` on a continuous variable is unusable if the learned leaves merge into one leaf (`unit.leaves` of a leaf unit is empty, so the result is a sum unit without children), and raises `AttributeError` if one of several leaves is a Dirac distribution (a leaf in which all samples have the same value).
* C89: `number_of_trainable_parameters` and `slices_of_parameters_for_flat_model` use `len` of matrices, i.e. their number of rows; with dense sum layers or discrete layers the assembled circuit has vectors in place of matrices and `conditional_log_likelihood` raises (`C89_full_false`).
* C91: `nodes_weights` reads the edge attribute `weight` (default 1) instead of `log_weight`; all entries are 1 (`C91_full_false`).
* C92: `DiscreteDistribution.__eq__` ignores the order of the outcomes, `__hash__` does not, so equal distributions may have different hashes (`C92_full_false`). Gaussian distributions define `__eq__` without `__hash__` and are unhashable (`C92_gaussian`).
* C94: `is_valid` does not check that there is one root; a circuit with two parentless units can be valid while `root` raises (`C94_rootless`).
* C99: `ClassificationCircuit.fit` indexes `log_probs[y]`. With integer labels this picks whole rows of the data by class number, so only the first rows (as many as there are classes) are trained on and their labels do not matter (C99_integer_labels_partial, C99_ignores, C99_unordered).
* C101: `IntegerDistribution.cdf` stops at the first key (in insertion order) that is larger than the largest row; with unsorted keys the value of a row is too small and depends on the other rows of the array (`C101_other_rows`, `C101_full_false`).
* C104: a second `fit` of a `NygaDistribution` or `JPT` raises `ValueError` and destroys the model (`C104_nyga_again`, `C104_jpt_again`); so does a first `JPT.fit` that fails on the data frame (`C104_jpt_failed_first`).
* C105: the order in which evidence is entered changes the result. ½(½U[0,½]+½U[2,3])+½U[½,1] told 0<x<1 and -1<x<9 gives 0<x<½ the probability ½; told first -1<x<9, which is certain, it gives ⅓. The first conditioning flattens the nested mixture, and only then the weight of the impossible component counts.
* C108: entering evidence before or after `marginal` gives different models. On ½(½U[0,1]+½U[2,3])⊗U + ½U[0,½]⊗U with the evidence x₀ ∈ (-1,1), P(x₀ ∈ (0,½)) is 3/4 if `conditional` comes first and 5/6 if `marginal` comes first (`C108_full_false`); the exact value is 5/6.
* C111: integer columns store `hash(x)`, and `hash(-1) == hash(-2)`, so a tree that separates -1 from -2 has leaves that overlap and `mode` raises `IntractableError`.
* C112: `translate` does nothing to a circuit that is a single leaf, so its expectation stays (`C112_full_false`); `scale` adds the factor to the location of Dirac distributions, so even the factor 1 changes the expectation (`C112_scale_full_false`).
* C113: `IntegerDistribution.fit([-1])` gives `-1` probability zero (`hash(-1) == -2`), so the distribution that is certain of `-1` makes the data more likely (`C113_full_false`).
* C114: `l1` compares the densities at one centre per pair of products. For circuits that are not deterministic the densities are not constant there: for ½U[0,2]+½U[1,3] and U[0,3] it returns 0 although the distance is 1/3 (`C114_full_false`). Moreover circuits made by `from_probabilistic_circuit` are not normalized (C76), so the hypotheses hold for shallow circuits that are built or normalized by hand. Symbolic leaves make it fail, since set elements have no `center`.
* C115: `mount_from_bayesian_network` stores `np.log(own_weight)` where `own_weight` is a log weight: NaN for every weight below one, so every normalized mixture of at least two components has likelihood NaN afterwards (`C115_normalized`, `C115_full_false`).
* C116: conditioning a learned tree drops the leaves that do not agree with the evidence and renormalises the weights of the others, but does not multiply them with the probability of the evidence in the leaf (`nx/probabilistic_circuit.py:852-880`). `C116_full_false` is a tree learned from three rows where P(0 given 0 or 1) is 1/3 and not 1/2.
* C117: the variance of a learned tree ignores the spread between leaves with a single distinct value, because the second moment of a Dirac leaf is 0 around every centre; with a symbolic column every moment raises.
* C118: a tree learned from the integer -1 considers -2 possible and -1 impossible, and samples -2.
* C119: predictions of a conditioned tree are not conditional expectations: leaves count with all their rows, agreeing or not (three rows, two leaves: 1 instead of 3/4).
* C121: for learned trees the claim fails for rows with the integer -1, which `IntegerDistribution.fit` stores under `hash(-1) = -2`: the tree rejects its own training row (`C121_full_false`).
* C122: for learned trees the claim fails for rows with the integer -1, which is stored as -2 (`C122_full_false`).
