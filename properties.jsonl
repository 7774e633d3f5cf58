{"id": "C01", "title": "Every edge keeps a valid origin", "statement": "Whatever sequence of constructor, add_edge, add_edges_from, add_weighted_edges_from, remove_edge, remove_node, clear, remove_edges_below_threshold, threshold_till_dag, subgraph, copy and reverse calls is made on a StructureModel, every edge carries an origin that is one of 'unknown', 'learned', 'expert'; a call with any other origin raises and leaves the graph as it was; re-adding an edge makes the most recent origin win and never creates a parallel edge.", "quantifier": "all finite sequences of StructureModel operations with arbitrary nodes, weights and origins", "why_tests_cant": "A test runs a handful of call sequences; the claim is an invariant over every history of mutations, including failing calls in the middle.", "anchors": ["causalnex/structure/structuremodel.py: _validate_origin, add_edge, add_edges_from, add_weighted_edges_from"]}
{"id": "C02", "title": "Origin query partitions the edges", "statement": "edges_with_origin(o) returns exactly the edges whose origin is o, each once; if no call passed an origin inside a per-edge attribute dictionary, the answers for the three valid origins are pairwise disjoint and together are all edges of the graph.", "quantifier": "all StructureModels reachable through the API and all origins", "why_tests_cant": "Requires every graph, not the few literal graphs of a test.", "anchors": ["causalnex/structure/structuremodel.py: edges_with_origin"]}
{"id": "C03", "title": "Threshold removal is exact, idempotent and composes by maximum", "statement": "After remove_edges_below_threshold(t) the edges are exactly the former edges with |weight| >= t (boundary kept), with unchanged attributes, and all nodes remain; applying t then s equals applying max(t, s), in particular the operation is idempotent.", "quantifier": "all weighted graphs and all thresholds", "why_tests_cant": "Boundary and composition behaviour over all weights and thresholds is a universally quantified algebraic law.", "anchors": ["causalnex/structure/structuremodel.py: remove_edges_below_threshold"]}
{"id": "C04", "title": "Largest subgraph is a whole component with the most edges", "statement": "get_largest_subgraph returns None iff the graph has no edge; otherwise the returned graph is induced on one complete weakly connected component (no node of it is linked to a node outside), its edges and attributes are those of the original between these nodes, and no component has more edges. The receiver is unchanged.", "quantifier": "all directed graphs and orders in which the components are visited", "why_tests_cant": "Maximality and completeness of a component are statements about all graphs and all components.", "anchors": ["causalnex/structure/structuremodel.py: get_largest_subgraph"]}
{"id": "C05", "title": "Target subgraph is exactly the component of the node", "statement": "get_target_subgraph(n) raises NodeNotFound iff n is not a node; otherwise its nodes are exactly the nodes reachable from n ignoring edge direction and its edges exactly the edges among them.", "quantifier": "all directed graphs and all nodes", "why_tests_cant": "Reachability over arbitrary graphs is unbounded; tests only sample small graphs.", "anchors": ["causalnex/structure/structuremodel.py: get_target_subgraph"]}
{"id": "C06", "title": "threshold_till_dag terminates at a DAG and removes only weakest edges", "statement": "threshold_till_dag terminates on every weighted graph, ends acyclic, keeps all nodes, leaves an already acyclic graph untouched, only deletes edges, every deleted edge has |weight| no larger than every kept edge, and it stops at the first acyclic graph (before the last deletion the graph was still cyclic).", "quantifier": "all weighted directed graphs, all tie-breaks among equal weights", "why_tests_cant": "Termination and acyclicity for every graph cannot be sampled.", "anchors": ["causalnex/structure/structuremodel.py: threshold_till_dag"]}
{"id": "C07", "title": "BayesianNetwork accepts exactly connected DAGs", "statement": "Constructing a BayesianNetwork succeeds iff the structure has at most one weakly connected component and no directed cycle; a disconnected structure is reported as disconnected even if also cyclic; the nodes and edges of the network are those of the structure.", "quantifier": "all directed graphs", "why_tests_cant": "Equivalence with a graph-theoretic predicate over all graphs.", "anchors": ["causalnex/network/network.py: BayesianNetwork.__init__"]}
{"id": "C08", "title": "Node states are encoded by a bijection and the setter is atomic", "statement": "Assigning node_states either raises (a node of the network is missing, or a state is null) leaving the previous states in force, or makes the encoding of each node's states a bijection onto 0..k-1 that is increasing in the sorted order of the distinct states, independent of the order in which states are listed.", "quantifier": "all state dictionaries and all previous states", "why_tests_cant": "Bijection and order-independence over all sets of states, and atomicity at every failure point.", "anchors": ["causalnex/network/network.py: node_states.setter, fit_node_states"]}
{"id": "C09", "title": "State encoding of data round-trips", "statement": "Encoding a data frame with the fitted states and decoding gives back the data; a frame containing an unseen state is rejected; the caller's frame is not modified.", "quantifier": "all data frames and all fitted states", "why_tests_cant": "Round-trip law over all frames.", "anchors": ["causalnex/network/network.py: _state_to_index, fit_cpds"]}
{"id": "C10", "title": "Fitted CPDs are conditional probability tables", "statement": "After fit_cpds (MaximumLikelihood, or BayesianEstimator with K2 or BDeu prior), every CPD entry is nonnegative, every column sums to one, and each entry is (count + pseudo count)/(column total) of the training data; for maximum likelihood that is the relative frequency where the parent configuration was seen.", "quantifier": "all data sets, structures and priors", "why_tests_cant": "Normalisation over all data sets including unseen parent configurations.", "anchors": ["causalnex/network/network.py: fit_cpds"]}
{"id": "C11", "title": "fit_cpds validation and preconditions", "statement": "fit_cpds raises for an unknown method, and for BayesianEstimator without a prior, with an unknown prior or BDeu without equivalent sample size; an unfitted network raises when its CPDs are used; a rejected call leaves the fitted CPDs unchanged.", "quantifier": "all argument combinations and network states", "why_tests_cant": "Exact error conditions over all argument combinations.", "anchors": ["causalnex/network/network.py: fit_cpds"]}
{"id": "C12", "title": "Prediction with complete data is the argmax of the reported probability", "statement": "With complete parent data, predict returns for each row a state with maximal predict_probability for that row; predict_probability's row is the CPD column selected by that row's parent states, is nonnegative and sums to one; columns are named by the node's states in order.", "quantifier": "all networks, rows and nodes", "why_tests_cant": "Column alignment must hold for every parent set, order and cardinality.", "anchors": ["causalnex/network/network.py: predict, predict_probability, _predict_from_complete_data, _predict_probability_from_complete_data"]}
{"id": "C13", "title": "Prediction with incomplete data speaks in states", "statement": "With incomplete parent data, predict returns states of the node (not internal codes) and predict_probability names its columns by states, as with complete data. Both raise, leaving all frames as they are, for a node that is not in the network.", "quantifier": "all networks, rows and nodes with missing parents", "why_tests_cant": "Requires all state spaces; tests use states 0..k-1 where codes and states coincide.", "anchors": ["causalnex/network/network.py: _predict_from_incomplete_data, _predict_probability_from_incomplete_data"]}
{"id": "C14", "title": "Query without evidence returns exact marginals", "statement": "For every connected DAG network, InferenceEngine.query() returns, for each variable and state, the exact marginal of the joint distribution defined by the product of the CPDs.", "quantifier": "all connected Bayesian networks, state spaces, CPDs, and all orders in which sets/ties are enumerated", "why_tests_cant": "Correctness of moralisation, triangulation, junction tree construction and propagation for all graph shapes.", "anchors": ["causalnex/inference/inference.py: query", "causalnex/ebaybbn/bbn.py: BBN.query, build_join_tree, triangulate, JoinTree.propagate"]}
{"id": "C15", "title": "Query with evidence returns exact conditional marginals", "statement": "For every evidence of positive probability, query(evidence) returns P(v = s | evidence) exactly; in particular the answers for each variable sum to one and an observed variable has probability one at its observed state.", "quantifier": "all connected Bayesian networks, all evidence sets", "why_tests_cant": "All networks and all subsets of evidence.", "anchors": ["causalnex/inference/inference.py: query", "causalnex/ebaybbn/bbn.py: BBN.query, initialize_potentials, marginal"]}
{"id": "C16", "title": "Impossible evidence never crashes", "statement": "If the evidence has probability zero, query returns zero for every state and does not raise; message passing never divides by zero.", "quantifier": "all networks and all zero probability evidence", "why_tests_cant": "Division-by-zero freedom over all potentials and message orders.", "anchors": ["causalnex/ebaybbn/bbn.py: absorb, query"]}
{"id": "C17", "title": "Evidence validation", "statement": "query raises iff some key of the evidence is not a variable or some value is not among the states of its variable; otherwise it returns a value.", "quantifier": "all evidence dictionaries", "why_tests_cant": "Exact error domain over all dictionaries.", "anchors": ["causalnex/ebaybbn/bbn.py: validate_keyvals", "causalnex/inference/inference.py: query"]}
{"id": "C18", "title": "Join tree exists, is a tree and has the running intersection property", "statement": "For every connected DAG the constructed join tree is a tree over cliques such that every CPD family lies inside a clique, every variable's cliques form a connected subtree and every separator is the intersection of its two cliques; construction terminates.", "quantifier": "all connected DAGs and tie-breaking orders", "why_tests_cant": "Graph-theoretic invariant of a greedy construction.", "anchors": ["causalnex/ebaybbn/bbn.py: make_moralized_copy, triangulate, record_cliques, build_join_tree, SepSet"]}
{"id": "C19", "title": "Triangulation yields a chordal supergraph with its maximal cliques", "statement": "triangulate terminates, eliminates every node exactly once, only adds edges, the result is chordal (the elimination order is perfect) and no returned clique is contained in another.", "quantifier": "all undirected graphs and priority functions", "why_tests_cant": "Invariant over all graphs and all priority tie-breaks.", "anchors": ["causalnex/ebaybbn/bbn.py: triangulate, priority_func, record_cliques"]}
{"id": "C20", "title": "Every CPD is used exactly once", "statement": "Assigning CPDs to cliques assigns each network CPD to exactly one clique containing its family, so the product of the initial clique potentials is the joint distribution.", "quantifier": "all networks", "why_tests_cant": "A dropped or doubled factor only shows on particular shapes.", "anchors": ["causalnex/ebaybbn/bbn.py: assign_clusters, initialize_potentials"]}
{"id": "C21", "title": "Variable introduction is resolved for every acyclic factor set", "statement": "get_original_factors terminates for every set of factors coming from a DAG, in any listing order and any argument order, and maps each variable to its own factor.", "quantifier": "all DAGs and listing orders", "why_tests_cant": "Termination and order independence.", "anchors": ["causalnex/ebaybbn/utils.py: get_original_factors", "causalnex/ebaybbn/bbn.py: build_bbn"]}
{"id": "C22", "title": "Propagation calibrates the tree for any visiting order", "statement": "After propagation, for every choice of start clique and every order in which neighbours are visited, each clique's potential is the sum of the joint over the variables outside the clique, and neighbouring cliques agree on their separator.", "quantifier": "all junction trees, potentials, starting cliques and neighbour visiting orders", "why_tests_cant": "The neighbour sets are Python sets with arbitrary iteration order: a schedule quantifier.", "anchors": ["causalnex/ebaybbn/bbn.py: propagate, collect_evidence, distribute_evidence, pass_message, project, absorb"]}
{"id": "C23", "title": "Intervention implements the truncated factorisation", "statement": "After a successful do_intervention(node, dist), query returns marginals of the distribution where node's CPD is replaced by dist and all other CPDs are kept; the node's own marginal is dist and its non-descendants keep their marginals.", "quantifier": "all networks, nodes and distributions accepted", "why_tests_cant": "All graphs and positions of the intervened node.", "anchors": ["causalnex/inference/inference.py: do_intervention, _do"]}
{"id": "C24", "title": "reset_do restores the original model after any history", "statement": "After any sequence of interventions and resets in which every intervened node has been reset, queries give the same results as on the freshly built engine; resetting one node leaves interventions on others in force.", "quantifier": "all histories of do/reset/query operations", "why_tests_cant": "History quantifier.", "anchors": ["causalnex/inference/inference.py: reset_do, do_intervention"]}
{"id": "C25", "title": "Interventions on different nodes commute and the last one on a node wins", "statement": "do(a) then do(b) gives the same engine as do(b) then do(a) for a != b whenever both orders are accepted, and do(a,p) then do(a,q) equals do(a,q).", "quantifier": "all engines, nodes and distributions", "why_tests_cant": "Commutation over all states.", "anchors": ["causalnex/inference/inference.py: do_intervention, _do"]}
{"id": "C26", "title": "A rejected intervention changes nothing and is rejected exactly when invalid", "statement": "do_intervention raises iff the distribution does not sum to one, has an entry outside [0,1], or its states differ from the node's states, or the intervention would isolate the node; after a raised distribution error later queries answer as before.", "quantifier": "all engine states and intervention arguments", "why_tests_cant": "Atomicity at every failing point.", "anchors": ["causalnex/inference/inference.py: do_intervention, _do"]}
{"id": "C27", "title": "Queries have no side effects", "statement": "query never changes later answers: any interleaving of queries with do/reset gives each query the answer it would have had with the other queries removed.", "quantifier": "all histories", "why_tests_cant": "History quantifier.", "anchors": ["causalnex/inference/inference.py: query", "causalnex/ebaybbn/bbn.py: query"]}
{"id": "C28", "title": "Forward sampling respects evidence and support", "statement": "draw_samples(query, n) returns n complete samples, each containing the given evidence, each state in its domain; for every random outcome strictly between 0 and 1 a drawn sample has positive probability given the evidence; the random number selects each state with its conditional probability.", "quantifier": "all networks, evidence, all random choices", "why_tests_cant": "All random outcomes.", "anchors": ["causalnex/ebaybbn/bbn.py: draw_samples"]}
{"id": "C29", "title": "Discretisation buckets are exact and monotone", "statement": "Discretiser.transform maps each value to the number of split points less than or equal to it; results lie in 0..k; larger values never get a smaller bucket; bucket i is exactly the half-open interval between split points i and i+1.", "quantifier": "all values and nondecreasing split points", "why_tests_cant": "All boundary positions and ties.", "anchors": ["causalnex/discretiser/discretiser.py: transform"]}
{"id": "C30", "title": "Discretiser constructor accepts exactly valid settings", "statement": "The constructor raises iff the method is unknown or a parameter the method needs is missing or out of range (bucket count, outlier percentile, numeric split points sorted, percentile split points sorted in [0,1]).", "quantifier": "all argument combinations", "why_tests_cant": "Equivalence over all combinations.", "anchors": ["causalnex/discretiser/discretiser.py: __init__"]}
{"id": "C31", "title": "Fitted split points are ordered, correctly many and data-order independent", "statement": "After fit, the numeric split points are nondecreasing, number num_buckets-1 (uniform, quantile), 2 (outlier) or the number of percentiles, lie between min and max of the data, and do not depend on the order of the data; fixed cannot be fitted.", "quantifier": "all nonempty data and settings with at least one bucket", "why_tests_cant": "Quantile interpolation over all data.", "anchors": ["causalnex/discretiser/discretiser.py: fit"]}
{"id": "C32", "title": "Fit then transform covers all data", "statement": "fit followed by transform on the same data puts every value in one of the num_buckets buckets, the minimum in the lowest used bucket and equal values in equal buckets.", "quantifier": "all nonempty data and settings with at least one bucket", "why_tests_cant": "All data.", "anchors": ["causalnex/discretiser/discretiser.py: fit, transform, fit_transform"]}
{"id": "C33", "title": "ROC/AUC evaluates predictions against the right class columns", "statement": "For every labelling and all states, the ground-truth indicator matrix used by roc_auc has exactly one 1 per row, at the true state's column, and its columns are aligned with the columns of the predicted probabilities.", "quantifier": "all node names, state names and data", "why_tests_cant": "Alignment depends on name strings: must hold for every node name and state name.", "anchors": ["causalnex/evaluation/evaluation.py: _build_ground_truth, roc_auc"]}
{"id": "C34", "title": "AUC lies between 0 and 1 and the curve is monotone", "statement": "The false and true positive rates returned by roc_auc are nondecreasing from 0 to 1 and the area lies in [0,1].", "quantifier": "all probability tables and labels with both outcomes present", "why_tests_cant": "All data.", "anchors": ["causalnex/evaluation/evaluation.py: roc_auc"]}
{"id": "C35", "title": "Cutting at discontinuities partitions the series exactly at gaps", "statement": "The pieces produced for a realisation, concatenated, are the realisation; inside a piece consecutive indices differ by at most one; between pieces they differ by more than one; no piece of a nonempty realisation is empty.", "quantifier": "all index sequences", "why_tests_cant": "All gap patterns.", "anchors": ["causalnex/structure/transformers.py: _cut_dataframes_on_discontinuity_points"]}
{"id": "C36", "title": "Lagged matrices are time-aligned", "statement": "In the matrices produced by DynamicDataTransformer, row r of X together with lag block k of row r of Xlags are observations exactly k steps apart within one continuous piece; X and Xlags have equally many rows, namely the sum over pieces of max(0, length - p).", "quantifier": "all collections of time series and all p >= 1", "why_tests_cant": "Off-by-one errors across arbitrary lengths.", "anchors": ["causalnex/structure/transformers.py: _convert_realisations_into_dynotears_format, _concat_lags, transform"]}
{"id": "C37", "title": "Dynamic transformer input checks", "statement": "transform raises iff the input is not well-formed (wrong type, index not integer or decreasing somewhere, unequal columns, empty list); otherwise succeeds.", "quantifier": "all inputs", "why_tests_cant": "Exact error domain.", "anchors": ["causalnex/structure/transformers.py: _check_input_from_pandas"]}
{"id": "C38", "title": "Tabu constraints and no self loops hold for every optimiser outcome", "statement": "Whatever point the bounded optimiser returns inside its box, the graph learned by from_numpy/from_pandas (also lasso) contains no self loop, no tabu edge, no edge out of a tabu parent and none into a tabu child.", "quantifier": "all data sizes, tabu sets and all optimiser outcomes within bounds", "why_tests_cant": "The optimiser's result is arbitrary; the guarantee must hold for all of them.", "anchors": ["causalnex/structure/notears.py: from_numpy, from_numpy_lasso, _learn_structure, _learn_structure_lasso"]}
{"id": "C39", "title": "Threshold leaves only strong edges", "statement": "Every edge of a learned graph has nonzero weight and |weight| at least (lasso) or above (plain) w_threshold, and every entry above the threshold is an edge with that weight.", "quantifier": "all weight matrices and thresholds", "why_tests_cant": "All matrices and boundary cases.", "anchors": ["causalnex/structure/notears.py: _learn_structure, _learn_structure_lasso"]}
{"id": "C40", "title": "The acyclicity score vanishes exactly on DAGs", "statement": "The function h(W) = trace(exp(W*W)) - d used by NOTEARS/DYNOTEARS is never negative and is zero iff the weighted graph of W has no directed cycle.", "quantifier": "all real square matrices of all sizes", "why_tests_cant": "Analytic identity over all matrices.", "anchors": ["causalnex/structure/notears.py: _learn_structure (_h)", "causalnex/structure/dynotears.py: _learn_dynamic_structure (_h)"]}
{"id": "C41", "title": "The polynomial acyclicity score of the pytorch version vanishes exactly on DAGs", "statement": "trace((I + W/d)^d) - d with W entrywise nonnegative is nonnegative and zero iff the graph of W is acyclic.", "quantifier": "all nonnegative square matrices of all sizes d >= 1", "why_tests_cant": "Identity over all matrices.", "anchors": ["causalnex/structure/pytorch/core.py: _h_func"]}
{"id": "C42", "title": "The dual ascent loop terminates", "statement": "For every behaviour of the inner optimiser that returns finite scores, the learning loop ends after at most max_iter outer iterations and at most finitely many penalty increases; with max_iter 0 the learned graph is empty.", "quantifier": "all inner optimiser behaviours", "why_tests_cant": "Adversarial optimiser behaviour.", "anchors": ["causalnex/structure/notears.py: _learn_structure, _learn_structure_lasso", "causalnex/structure/pytorch/core.py: _dual_ascent_step, fit"]}
{"id": "C43", "title": "Learning from a data frame is learning from its values with renamed nodes", "statement": "from_pandas returns the graph of from_numpy on the values with node i renamed to column i: all columns are nodes, edges and weights correspond, origin is 'learned'; tabu names are translated to the same positions.", "quantifier": "all data frames with distinct column names", "why_tests_cant": "All column name assignments.", "anchors": ["causalnex/structure/notears.py: from_pandas, from_pandas_lasso"]}
{"id": "C44", "title": "Lasso split parametrisation recovers a signed matrix within bounds", "statement": "The learned lasso matrix is the difference of two nonnegative halves; any signed matrix with zeros at forbidden positions is representable, and a forbidden position is zero.", "quantifier": "all optimiser outcomes", "why_tests_cant": "All points of the feasible box.", "anchors": ["causalnex/structure/notears.py: _learn_structure_lasso, from_numpy_lasso"]}
{"id": "C45", "title": "DYNOTEARS bounds line up with its parameter layout", "statement": "For every optimiser outcome within the bounds, a tabu edge (lag, i, j), tabu parent or tabu child never appears with nonzero weight in the returned intra- or inter-slice weights, and there is no intra-slice self loop.", "quantifier": "all dimensions, lags, tabu sets and optimiser outcomes", "why_tests_cant": "Flat parameter layout correctness for all d, p.", "anchors": ["causalnex/structure/dynotears.py: from_numpy_dynamic, _reshape_wa"]}
{"id": "C46", "title": "Dynamic graphs only point into the present", "statement": "Every edge of a graph returned by from_numpy_dynamic/from_pandas_dynamic ends in a lag-0 node; nodes are exactly all variables at all lags 0..p; a nonzero weight for (lag k, i -> j) gives exactly the edge i_lagk -> j_lag0.", "quantifier": "all weights, d and p", "why_tests_cant": "All shapes.", "anchors": ["causalnex/structure/dynotears.py: _matrices_to_structure_model, from_pandas_dynamic, _format_name_from_pandas"]}
{"id": "C47", "title": "The dynamic graph is acyclic iff its intra-slice part is", "statement": "A dynamic structure model is acyclic iff its intra-slice graph is.", "quantifier": "all weights", "why_tests_cant": "All graphs.", "anchors": ["causalnex/structure/dynotears.py: _matrices_to_structure_model"]}
{"id": "C48", "title": "Dynamic column names round-trip", "statement": "Formatting a column name with its lag and mapping back gives the same variable and lag; distinct (variable, lag) pairs get distinct node names.", "quantifier": "all column names and lags", "why_tests_cant": "String injectivity over all names.", "anchors": ["causalnex/structure/dynotears.py: _format_name_from_pandas, from_pandas_dynamic"]}
{"id": "C49", "title": "DYNOTEARS input validation", "statement": "from_numpy_dynamic raises iff the data are empty, rows of X and Xlags differ, or the number of lag columns is not a positive multiple of the number of variables.", "quantifier": "all matrix shapes", "why_tests_cant": "Exact error domain.", "anchors": ["causalnex/structure/dynotears.py: from_numpy_dynamic, _learn_dynamic_structure"]}
{"id": "C50", "title": "Variable-to-feature index map is a partition", "statement": "For a schema whose feature names do not collide, the index lists of the variables are disjoint and cover 0..n_features-1, with categorical variables getting as many indices as their cardinality and others one.", "quantifier": "all schemas", "why_tests_cant": "All mixes of types and cardinalities.", "anchors": ["causalnex/structure/categorical_variable_mapper.py: VariableFeatureMapper.__init__, get_indices"]}
{"id": "C51", "title": "Feature names and indices round-trip", "statement": "get_feature_index of the i-th feature is i; the features of a variable are at its indices in order; a categorical variable itself is rejected as a feature.", "quantifier": "all schemas", "why_tests_cant": "All schemas.", "anchors": ["causalnex/structure/categorical_variable_mapper.py: get_feature_index, get_feature_names, get_indices"]}
{"id": "C52", "title": "Schema validation imputes and checks exactly", "statement": "validate_schema returns a schema with exactly the given nodes, using the given type or the default; it raises iff a type is unknown or a categorical type lacks a cardinality without leading zeros; every accepted schema can be expanded.", "quantifier": "all node lists and schema strings", "why_tests_cant": "String-level condition over all strings.", "anchors": ["causalnex/structure/categorical_variable_mapper.py: validate_schema"]}
{"id": "C53", "title": "Generated structures are DAGs within the weight range", "statement": "For every random outcome, generate_structure returns a DAG on exactly num_nodes nodes whose edge weights have absolute value in [w_min, w_max]; 'full' returns a complete DAG.", "quantifier": "all random outcomes, sizes and degrees", "why_tests_cant": "All outcomes of the random generator.", "anchors": ["causalnex/structure/data_generators/core.py: generate_structure"]}
{"id": "C54", "title": "Generated dynamic structures are acyclic and point to the present", "statement": "For every random outcome, generate_structure_dynamic has all edges ending in lag 0, an acyclic intra-slice part, all num_nodes*(p+1) nodes and weights within decayed ranges.", "quantifier": "all random outcomes", "why_tests_cant": "All random outcomes.", "anchors": ["causalnex/structure/data_generators/wrappers.py: generate_structure_dynamic, _generate_inter_structure"]}
{"id": "C55", "title": "SEM sampling respects the schema", "statement": "For every random outcome, in generated data binary columns hold 0/1, each categorical variable's columns hold exactly one 1 per row, count columns hold nonnegative whole numbers.", "quantifier": "all graphs, all schemas of documented types without a clash of feature names, all random outcomes", "why_tests_cant": "All random outcomes.", "anchors": ["causalnex/structure/data_generators/core.py: sem_generator, _sample_binary_from_latent, _sample_categories_from_latent, _sample_count_from_latent"]}
{"id": "C56", "title": "SEM sampling generates each variable after its parents", "statement": "sem_generator computes every variable from the final values of its parents (and, with intercepts and noise, equals the linear structural equation), and rejects cyclic graphs.", "quantifier": "all DAGs, all schemas of documented types without a clash of feature names, all random outcomes", "why_tests_cant": "All graph shapes and topological orders.", "anchors": ["causalnex/structure/data_generators/core.py: sem_generator"]}
{"id": "C57", "title": "Poisson sampler inverts its distribution function and is bounded", "statement": "For each uniform draw u the count sampler terminates and returns the smallest k with u < CDF(k), or the maximal count if there is none below it.", "quantifier": "all rates and draws", "why_tests_cant": "All real draws.", "anchors": ["causalnex/structure/data_generators/core.py: _sample_poisson"]}
{"id": "C58", "title": "Gaussian-process index shuffling is undone", "statement": "The nonlinear generator's block-wise sampling returns values in the original row order: value for row i belongs to row i.", "quantifier": "all permutations and block sizes", "why_tests_cant": "All permutations.", "anchors": ["causalnex/structure/data_generators/core.py: _gp_index"]}
{"id": "C59", "title": "Dynamic data generator writes lag columns correctly", "statement": "In data from generate_dataframe_dynamic the column of variable v at lag k in row t is the lag-0 value of v in row t-k.", "quantifier": "all dynamic graphs, all p", "why_tests_cant": "All sizes and lags; naming and layout must agree.", "anchors": ["causalnex/structure/data_generators/wrappers.py: generate_dataframe_dynamic"]}
{"id": "C60", "title": "Tabu constraints expand to all columns of expanded variables", "statement": "When categorical columns are expanded, the tabu edges/parents/children passed on are exactly all pairs of columns of the two variables, in addition to the self-block of each categorical variable, for any number of expanded variables and any order.", "quantifier": "all schemas and tabu sets", "why_tests_cant": "All combinations of expansions.", "anchors": ["causalnex/structure/pytorch/dist_type/_base.py: update_tabu_edges, update_tabu_nodes", "causalnex/structure/pytorch/dist_type/categorical.py: preprocess_tabu_edges, preprocess_tabu_nodes", "causalnex/structure/pytorch/notears.py: from_numpy"]}
{"id": "C61", "title": "Pytorch bounds line up with the flattened network weights", "statement": "For every weight vector within the bounds handed to the optimiser, the adjacency computed from the network has zero at every tabu position and on the diagonal.", "quantifier": "all d, hidden sizes, tabu sets and weight vectors", "why_tests_cant": "Flat layout for all sizes.", "anchors": ["causalnex/structure/pytorch/notears.py: from_numpy", "causalnex/structure/pytorch/core.py: _calculate_adj, _dual_ascent_step"]}
{"id": "C62", "title": "Collapsing expanded columns aggregates exactly the groups", "statement": "The collapsed adjacency between two variables is the aggregate over all pairs of their columns, so a collapsed edge is present iff some weight between their columns is nonzero (without a threshold: iff there is an edge between their columns); columns of unexpanded variables are kept.", "quantifier": "all adjacencies and groupings", "why_tests_cant": "All matrices and groupings.", "anchors": ["causalnex/structure/pytorch/dist_type/categorical.py: collapse_adj", "causalnex/structure/pytorch/notears.py: from_numpy"]}
{"id": "C63", "title": "Column bookkeeping survives any sequence of expansions", "statement": "After preprocessing any list of distribution types, each expanded column is recorded at its real position, original columns keep their positions and names are distinct when no generated name clashes with a column.", "quantifier": "all lists of distribution types", "why_tests_cant": "All sequences of expansions.", "anchors": ["causalnex/structure/pytorch/dist_type/categorical.py: preprocess_X, update_idx_col, make_node_name", "causalnex/structure/pytorch/notears.py: from_numpy"]}
{"id": "C64", "title": "Ordinal and categorical link functions give probability distributions", "statement": "The ordinal and categorical inverse links return nonnegative class probabilities summing to one for every latent value (ordinal: whenever the thresholds are ordered).", "quantifier": "all latent values and thresholds", "why_tests_cant": "All reals.", "anchors": ["causalnex/structure/pytorch/dist_type/ordinal.py: _get_probs", "causalnex/structure/pytorch/dist_type/categorical.py: inverse_link_function"]}
{"id": "C65", "title": "Dependent target has no children and constraints are not leaked", "statement": "With dependent_target=True the fitted DAG has no edge leaving the target for any optimiser outcome, and the caller's tabu list is unchanged after any number of fits.", "quantifier": "all data, tabu sets and histories of fits", "why_tests_cant": "History and optimiser outcome.", "anchors": ["causalnex/structure/pytorch/sklearn/_base.py: DAGBase.fit"]}
{"id": "C66", "title": "Classifier predictions are classes and maximise reported probability", "statement": "DAGClassifier.predict returns only values of classes_, and its choice has maximal predict_proba (ties aside); predict_proba has one column per class summing to one.", "quantifier": "all probabilities and classes", "why_tests_cant": "All reals, ties.", "anchors": ["causalnex/structure/pytorch/sklearn/clf.py: predict, predict_proba"]}
{"id": "C67", "title": "Feature importances are aligned with features", "statement": "feature_importances_ and coefficients are reported at the position of their feature, with zero for features without an edge to the target.", "quantifier": "all fitted graphs", "why_tests_cant": "All column sets.", "anchors": ["causalnex/structure/pytorch/sklearn/_base.py: get_edges_to_node", "causalnex/structure/pytorch/sklearn/clf.py: feature_importances_"]}
{"id": "C68", "title": "Colour gradients are valid and hit their ends", "statement": "color_gradient_string(a, b, n) returns n+1 well-formed colour strings, first a, last b, each channel between those of a and b.", "quantifier": "all colours and all n >= 1", "why_tests_cant": "All pairs of colours and steps.", "anchors": ["causalnex/plots/plots.py: color_gradient_string"]}
{"id": "C69", "title": "Plot attributes follow the documented precedence and leave the graph alone", "statement": "For every node and edge, the attribute plotted is the specific one if given, else the common one, else the default; plotting never changes the input graph.", "quantifier": "all graphs and attribute dictionaries", "why_tests_cant": "All dictionaries.", "anchors": ["causalnex/plots/plots.py: _add_attributes, plot_structure"]}
{"id": "C70", "title": "Inference after fitting answers from the estimated distribution", "statement": "For every accepted structure with an edge, node states and training data, after a successful fit_cpds an InferenceEngine can be built (for acceptable names) and its query answers, for every evidence of positive probability, the exact conditional marginals of the product of the estimated conditional distributions; that product is a probability distribution.", "quantifier": "all structures, node states, data sets, estimation methods and evidence", "why_tests_cant": "All structures and data.", "anchors": ["causalnex/network/network.py: BayesianNetwork.fit_cpds, cpds", "causalnex/inference/inference.py: InferenceEngine.__init__, query"]}
{"id": "C71", "title": "The optimiser is given the true gradient of the objective", "statement": "For from_numpy, from_numpy_lasso and from_numpy_dynamic, the gradient function handed to the optimiser is at every weight vector the gradient (in the sense of Frechet) of the objective function handed to it, for all data and all penalty parameters.", "quantifier": "all data sets, dimensions, penalty parameters and weight vectors", "why_tests_cant": "An analytic identity, including the derivative of a matrix exponential.", "anchors": ["causalnex/structure/notears.py: _learn_structure (_func, _grad), _learn_structure_lasso (_func, _grad)", "causalnex/structure/dynotears.py: _learn_dynamic_structure (_func, _grad)"]}
{"id": "C72", "title": "No warning and a suitable threshold guarantee a DAG", "statement": "The convergence warning is given exactly if the acyclicity score of the weights found is above h_tol. If it is not given and w_threshold^(2k) is at least (above, for lasso and dynotears) (k-1)! * h_tol for all 1 <= k <= number of variables, the learned graph has no directed cycle.", "quantifier": "all optimiser outcomes, data, tolerances and thresholds", "why_tests_cant": "All optimiser outcomes; needs a bound of cycle weights by the score for all matrices.", "anchors": ["causalnex/structure/notears.py: _learn_structure, _learn_structure_lasso", "causalnex/structure/dynotears.py: _learn_dynamic_structure"]}
{"id": "C73", "title": "The classification report scores each state against its own name", "statement": "For every fitted network and complete data with known states, classification_report holds, under the name {node}_{state}, the precision, recall, F1 score and support computed from the rows in which that state is the true one and those in which predict returns it.", "quantifier": "all networks, data sets, state names", "why_tests_cant": "Alignment of labels, names and predictions must hold for all states and data.", "anchors": ["causalnex/evaluation/evaluation.py: classification_report"]}
{"id": "C74", "title": "AUC is the probability of ranking a true state above a false one", "statement": "Whenever the columns of the predictions are aligned with those of the ground truth (see C33), the area returned by roc_auc is the probability that the predicted probability of a random (row, true state) pair is higher than that of a random (row, other state) pair, ties counting one half, even though intermediate points of the curve are dropped.", "quantifier": "all probability tables and labels with both outcomes present", "why_tests_cant": "An identity between an area and a count, for all data including ties.", "anchors": ["causalnex/evaluation/evaluation.py: roc_auc"]}
{"id": "C75", "title": "Dynamic data satisfies the structural equations in every row", "statement": "In every row of the data of generate_dataframe_dynamic, each lag-0 variable equals the weighted sum of its intra-slice parents in the same row and of its inter-slice parents in the columns of that row, plus its noise; burn-in rows are dropped and the initial content of the array has no influence.", "quantifier": "all dynamic structures, sizes, burn-ins and noise outcomes", "why_tests_cant": "All graphs, topological orders and random outcomes.", "anchors": ["causalnex/structure/data_generators/wrappers.py: generate_dataframe_dynamic"]}
{"id": "C76", "title": "Generated binary variables have both labels", "statement": "In data of sem_generator and nonlinear_sem_generator with at least two rows, each of the labels 0 and 1 of a binary variable is given to at least 5% of the rows (not counting one), unless two rows have exactly the same latent value.", "quantifier": "all graphs, schemas, weights, sample sizes and random outcomes", "why_tests_cant": "A statement about order statistics for all real outcomes.", "anchors": ["causalnex/structure/data_generators/core.py: _sample_binary_from_latent, sem_generator, nonlinear_sem_generator"]}
{"id": "C77", "title": "Generated data does not depend on the visiting order or on uninitialised memory", "statement": "For given random draws per variable, the data of sem_generator and of nonlinear_sem_generator is the same for every topological order of the graph and for every initial content of the array that is filled.", "quantifier": "all graphs, schemas, topological orders and initial memory contents", "why_tests_cant": "All orders and all memory contents.", "anchors": ["causalnex/structure/data_generators/core.py: sem_generator"]}
{"id": "C78", "title": "A pytorch graph learned without warning has no cycle above the threshold", "statement": "For a linear pytorch model fitted without the convergence warning (and before the penalty limit), the thresholded graph has no directed cycle, not even between variables with several columns, if C(n,k) k (t^2/n)^k > 1e-8 for every k up to the number n of variables; with a score of zero this holds for every network and threshold.", "quantifier": "all data, schemas, optimiser outcomes, thresholds", "why_tests_cant": "Absence of cycles of any length for every outcome of the optimiser.", "anchors": ["causalnex/structure/pytorch/notears.py: from_numpy", "causalnex/structure/pytorch/core.py: fit, _dual_ascent_step, _h_func"]}
{"id": "C79", "title": "The pytorch losses are negative log likelihoods of the data", "statement": "For every variable the loss that is minimised is the mean negative log likelihood of the original values (before any recoding) under the distribution the variable reports for its reconstruction, up to a number that does not depend on the network.", "quantifier": "all data of the declared kinds (binary data are 0 and 1, counts are whole numbers), schemas and networks", "why_tests_cant": "An identity over all real parameters and recodings.", "anchors": ["causalnex/structure/pytorch/dist_type/continuous.py: loss", "causalnex/structure/pytorch/dist_type/binary.py: loss", "causalnex/structure/pytorch/dist_type/poisson.py: loss", "causalnex/structure/pytorch/dist_type/ordinal.py: loss", "causalnex/structure/pytorch/dist_type/categorical.py: loss"]}
{"id": "C80", "title": "The learned graph of a linear pytorch model is the fitted model", "statement": "Without hidden layers and threshold, the latent reconstruction of every column is the bias of its node plus the sum over its incoming edges of mean_effect times the value of the source.", "quantifier": "all data, schemas, optimiser outcomes and rows", "why_tests_cant": "An identity for all fitted parameters.", "anchors": ["causalnex/structure/pytorch/notears.py: from_numpy", "causalnex/structure/pytorch/core.py: forward, _calculate_adj"]}
{"id": "C81", "title": "enforce_dag gives an acyclic graph and removes only the smallest edges", "statement": "With enforce_dag=True the fitted graph has no directed cycle; it is obtained from the learned graph by removing edges only, and every removed edge has absolute weight at most that of every edge that is kept.", "quantifier": "all data, parameters and optimiser outcomes", "why_tests_cant": "Cycles of any length in every learned graph.", "anchors": ["causalnex/structure/pytorch/sklearn/_base.py: fit", "causalnex/structure/structuremodel.py: threshold_till_dag"]}
{"id": "C82", "title": "The coefficients of a linear estimator explain its predictions", "statement": "Without hidden layers, threshold and enforce_dag, for continuous, binary and count variables, predict returns the inverse link of intercept_ plus the sum of coef_ times the features (in standardised units if standardize=True).", "quantifier": "all data, parameters, optimiser outcomes and rows", "why_tests_cant": "An identity for all fitted parameters and all rows.", "anchors": ["causalnex/structure/pytorch/sklearn/_base.py: predict, coef_, intercept_"]}
{"id": "C83", "title": "The generators for one type return columns of that type in a known order", "statement": "generate_continuous_data and generate_binary_data return an array whose j-th column is the variable of the j-th node of sm.nodes; the dataframe versions return one column per node (n_categories columns per node for categorical data) under the name of the node. Every column holds values of the requested type and satisfies the structural equation of its node: linear in its parents without kernel, a sample of the Gaussian process at its parents with a kernel.", "quantifier": "all DAGs, kernels, settings and random outcomes", "why_tests_cant": "All graphs, orders of nodes and random outcomes.", "anchors": ["causalnex/structure/data_generators/wrappers.py: generate_continuous_data, generate_binary_data, generate_continuous_dataframe, generate_binary_dataframe, generate_count_dataframe, generate_categorical_dataframe"]}
{"id": "C84", "title": "The generators for one type reject invalid settings", "statement": "A cyclic graph, a distribution outside the documented list, a zero inflation factor outside [0, 1] and a number of categories below 1 raise ValueError; nothing else is rejected.", "quantifier": "all graphs and settings", "why_tests_cant": "All invalid values.", "anchors": ["causalnex/structure/data_generators/wrappers.py: generate_continuous_data, generate_binary_data, generate_continuous_dataframe, generate_binary_dataframe, generate_count_dataframe, generate_categorical_dataframe"]}
{"id": "C85", "title": "Inference in floating point is accurate", "statement": "With arithmetic rounded to relative precision u after every operation (u = 2^-53 for Python's floats, without overflow and underflow), a query succeeds whenever it does with exact arithmetic and reports the same pairs of variable and state. Every reported probability has a relative error of at most 2 N u with an explicit N that is polynomial in the number of variables and the size of the largest clique table, it is zero exactly when the exact probability is zero, and observed variables are reported as exactly 1 and 0.", "quantifier": "all networks with nonnegative conditional probabilities, all evidence, all rounding functions and all orders in which the program visits sets", "why_tests_cant": "Rounding errors of every network and every evidence; cancellation or division could amplify them without bound.", "anchors": ["causalnex/ebaybbn/bbn.py: JoinTree.propagate, JoinTree.marginal, JoinTreeCliqueNode.pass_message, BBN.query"]}
{"id": "C86", "title": "With a good optimiser the learned structure is optimal and learning converges", "statement": "Suppose scipy's optimiser respects its bounds. If no call returns a point worse than the weights of some acyclic graph, the learned weights have a loss (squared error, plus the lasso penalties; for the PyTorch version the losses of all variables plus the documented regularisation) not larger than that graph; so with an optimiser that finds minima the learned weights are at least as good as every acyclic graph without excluded edges. If in addition max_iter is large enough for the spread of the loss (for NOTEARS: the mean square of the data is at most 1e19 h_tol^2 and at most (h_tol 4^(max_iter-1))^2), learning ends without the warning, with an acyclicity score of at most the tolerance (for the PyTorch version, the tolerance or the value the largest penalty enforces).", "quantifier": "all data, parameters with max_iter at least one, and optimiser outcomes over all numbers of iterations", "why_tests_cant": "Optimality compares with infinitely many graphs; convergence depends on all calls of the optimiser.", "anchors": ["causalnex/structure/notears.py: from_numpy, from_numpy_lasso, _learn_structure, _learn_structure_lasso", "causalnex/structure/dynotears.py: from_numpy_dynamic, _learn_dynamic_structure", "causalnex/structure/pytorch/core.py: fit, _dual_ascent_step, _l1_reg, _l2_reg"]}
{"id": "C87", "title": "With an optimiser that finds stationary points, the learned weights satisfy the first-order conditions of the constrained problem", "statement": "Suppose every call of scipy's optimiser returns a point within its bounds that satisfies the first-order condition for its objective. Then there is one multiplier m >= 0 such that the weights of the learned structure satisfy the first-order conditions (Karush, Kuhn, Tucker) for the loss plus m times the acyclicity score: excluded edges have weight 0, and the derivative in the weight of each permitted edge is 0 (NOTEARS), or in the interval [-lambda, lambda] and equal to -lambda for positive and to lambda for negative weights (with a lasso penalty lambda).", "quantifier": "all data, parameters with max_iter at least one, excluded edges and optimiser outcomes over all numbers of iterations", "why_tests_cant": "The conditions hold for the outcome of every sequence of calls of the optimiser; they depend on the derivatives the code computes by hand.", "anchors": ["causalnex/structure/notears.py: from_numpy, from_numpy_lasso, _learn_structure, _learn_structure_lasso", "causalnex/structure/dynotears.py: from_numpy_dynamic, _learn_dynamic_structure", "causalnex/structure/pytorch/core.py: fit, _dual_ascent_step"]}
{"id": "C88", "title": "Edge weights and mean effects of the PyTorch version are average derivatives", "statement": "With or without hidden layers, the weight of an edge from a to b is the average over the data of the absolute rate of change of the (latent) reconstruction of b with the value of a, and its mean_effect is the average of the rate of change itself; these derivatives exist for every network with a positive nonlinear_clamp. Between columns without an edge the rate of change is 0 on all data, or its average is below the threshold.", "quantifier": "all data, schemas, numbers of hidden layers, parameters and optimiser outcomes", "why_tests_cant": "The derivative of every network at every row; existence of a derivative cannot be tested.", "anchors": ["causalnex/structure/pytorch/core.py: forward, _calculate_adj", "causalnex/structure/pytorch/notears.py: from_numpy", "causalnex/structure/pytorch/nonlinear.py: LocallyConnected"]}
{"id": "C89", "title": "An inference engine shares no mutable data with anyone", "statement": "Over every history of calls in which callers create networks and engines, query, intervene, reset, fit or overwrite networks, and change in any way the dictionaries they passed in or got back, callers see what they would see if each network, engine and dictionary were a separate value. In particular: only do_intervention and reset_do on an engine change its answers (not changes to the network it was created from, to dictionaries passed to or returned by it, nor other engines of the same network); no call changes a dictionary of the caller or a network, so answers given earlier stay as they were; a query changes nothing that existed before; and the answers of an engine are those of a new engine of the network as it was at creation, after the interventions on that engine alone.", "quantifier": "all sequences of calls and of changes by the caller, of any length, with any number of networks, engines and dictionaries", "why_tests_cant": "Sharing shows only in particular interleavings of changes and calls; reset_do makes two dictionaries of the engine share an object, and node functions read the engine's dictionary when they are called.", "anchors": ["causalnex/inference/inference.py: InferenceEngine.__init__, query, do_intervention, reset_do, _do, _generate_bbn, _create_cpds_dict_bn, _create_node_functions, _generate_domains_bn"]}
{"id": "C90", "title": "Constructing, copying and reversing a structure keeps exactly the given graph", "statement": "StructureModel(data, origin=o), for an edge list, a graph, a dictionary of lists or a square array (whose nonzero entries are weights of edges), raises iff o is not one of the three origins; otherwise its nodes are the given nodes and the ends of the given edges, its edges are the given edges, each once, every edge has origin o (also if the data carries another origin, so StructureModel(sm) resets all origins to 'unknown') and every other attribute is the one given last for this edge. copy() and to_directed() keep nodes, edges and attributes, origins included; reverse() reverses every edge and keeps its attributes; removing an edge removes exactly this edge, not the one in the other direction; remove_node(u) (which raises iff u is not a node) and subgraph(c).copy() keep exactly the rest of the graph and the part on c. None of the others raises on a graph built through the API.", "quantifier": "all data, origins and graphs reachable through the API", "why_tests_cant": "Duplicated edges, isolated nodes and pre-existing origins combine in unboundedly many ways.", "anchors": ["causalnex/structure/structuremodel.py: __init__, to_directed_class", "networkx DiGraph.copy, DiGraph.reverse, to_networkx_graph"]}
{"id": "C91", "title": "Stationary dynamic data: what is returned, when it warns and when it ends", "statement": "gen_stationary_dyn_net_and_df returns a dynamic DAG on the nodes i_lagk, the sorted names of its present and lagged nodes, and n_samples rows with a column per name in that order. Without a warning the graph has edges within the present and from the past (unless a degree is 0), all values are smaller than 1000 in absolute value and satisfy the structural equations of the graph in each row, and graph and data come from the first attempt that succeeds; there is a warning, and constant data, exactly if none of the first max_data_gen_trials - 1 attempts succeeds. It raises ValueError only for unsuitable arguments; it returns whenever each attempt finds a graph, and never returns for p = 0 with degrees other than 0.", "quantifier": "all arguments, random draws, arithmetic failures and numbers of attempts", "why_tests_cant": "The loop over attempts ends by chance; failures at each point of each attempt leave different graphs behind.", "anchors": ["causalnex/structure/data_generators/wrappers.py: gen_stationary_dyn_net_and_df"]}
{"id": "C92", "title": "Interventions in floating point: what is accepted and what is answered", "statement": "With double precision arithmetic, do_intervention(node, dict) on an engine with any history succeeds iff the node is a parent of another one, the keys are its states, all values are between 0 and 1, and the values, added from left to right with rounding, give exactly 1.0; otherwise nothing changes. So p and 1 - p are accepted for every float p between 0 and 1, in either order; values that are multiples of 2^-53 adding up to one are accepted in every order; an int label is accepted iff it is a state; and the values of an accepted dict of n entries differ from one in sum by at most (n-1)/2^53. For three or more states acceptance can depend on the order of the dict, and the uniform distribution over ten states is always rejected. After an accepted intervention, if the graph stays connected, queries answer from the truncated factorisation with a relative error of at most 2N/2^53, with the N of C85.", "quantifier": "all networks with nonnegative float tables, histories of operations, dicts of any size and order, floats p (no overflow or underflow), evidence and orders in which the program visits sets", "why_tests_cant": "There are 2^62 floats between 0 and 1; whether a sum rounds to exactly 1.0 depends on the last bit of every value and on the order.", "anchors": ["causalnex/inference/inference.py: do_intervention, _do, query, reset_do"]}
{"id": "C93", "title": "With incomplete data predict_probability returns the columns of the requested node", "statement": "If data for a parent is missing, predict_probability(data, node) returns the probabilities of the states of the node asked for, and only these, whatever the node is called.", "quantifier": "all networks, data and node names", "why_tests_cant": "The name is used as a regular expression, so names with special characters select other columns: a dot any character, parentheses nothing.", "anchors": ["causalnex/network/network.py: predict_probability, _predict_probability_from_incomplete_data"]}
{"id": "C94", "title": "Sampling in floating point: what is returned, when it fails, and its law", "statement": "With double precision arithmetic and positive random numbers, draw_samples(query, n) for possible evidence returns n complete samples, each containing the evidence, with states of the domains and positive probability; or it raises IndexError, and this only if some random number is above 1 - (N + L)/2^53 - n*eta, for tables whose rows add up to one within eta, n nodes, L the largest table and N as in C85. IndexError does happen: one variable with seven equally likely states and the largest value random.random() returns. For fixed picks of variables, the random numbers giving a particular complete assignment form a box, with one interval per variable drawn, and its volume is the conditional probability of the assignment up to (8(N + L)/2^53 + 2|M - 1|) per variable drawn, M being what the tables multiply and add up to, between (1 - eta)^n and (1 + eta)^n.", "quantifier": "all networks with nonnegative float tables, possible evidence, positive random numbers up to one, picks, numbers of samples, contents of the cache left by earlier samples (no overflow or underflow)", "why_tests_cant": "The failing random numbers have probability 2^-53 or so; the law concerns volumes of sets of random numbers.", "anchors": ["causalnex/ebaybbn/bbn.py: draw_samples, query"]}
{"id": "C95", "title": "fit_node_states_and_cpds learns states and probabilities from the same data", "statement": "fit_node_states_and_cpds(data, method, bayes_prior, ...), for data with at least one row, raises KeyError if a node has no column and ValueError if any column, also one that is no node, has a null; the network is then unchanged. Otherwise the states of each node become the values in its column. If the method or prior is not accepted it then raises, with the old CPDs still in place (now labelled with the new states). Otherwise the CPD of a node has its values in increasing order as rows, the combinations of values of its parents as columns, and every entry is the estimate by the requested method from the numbers of rows of the data with these values.", "quantifier": "all structures, networks with any history, data frames and arguments", "why_tests_cant": "States, codes, parent combinations and counts interact for every data frame; the order of the two steps shows only when one fails.", "anchors": ["causalnex/network/network.py: fit_node_states, fit_node_states_and_cpds, fit_cpds"]}
{"id": "C96", "title": "A fit of a scikit-learn estimator that raises leaves its predictions as they were", "statement": "If fit of DAGRegressor or DAGClassifier raises, the estimator predicts afterwards what it predicted before: the graph, the scalers, the classes and the names of the features are those of the last successful fit.", "quantifier": "all estimators with any history, parameters, data and ways in which fit raises", "why_tests_cant": "The attributes are replaced one by one during fit, so what is left depends on the line that raises; with standardize=True the old network is then used with the means of the new data.", "anchors": ["causalnex/structure/pytorch/sklearn/_base.py: fit, predict", "causalnex/structure/pytorch/sklearn/clf.py: fit, predict", "causalnex/structure/pytorch/sklearn/reg.py: fit"]}
{"id": "C97", "title": "Networks built from a dict of conditional probabilities answer exactly", "statement": "build_bbn_from_conditionals({variable: [[[[parent, value], ...], {value: probability, ...}], ...]}) succeeds for every dict that describes a connected acyclic network: every entry names all the parents, in any order, every combination of their values has an entry, every entry gives nonnegative probabilities adding up to one to the same values. query(**evidence) then returns, for evidence of positive probability, the exact conditional probability of every value of every variable under the product of the probabilities in the dict (the last of several entries for the same values of the parents counts); zero everywhere for evidence of probability zero; and raises iff a variable or a value of the evidence is unknown. If a variable has no probability at all, building raises UnboundLocalError, and only then.", "quantifier": "all dicts, orders of variables, parents and entries, evidence, orders in which the program visits sets", "why_tests_cant": "There are unboundedly many dicts, and the names of the arguments are taken from the last key only.", "anchors": ["causalnex/ebaybbn/bbn.py: build_bbn_from_conditionals, make_node_func, query"]}
{"id": "C98", "title": "Every name of a node that the inference engine accepts can be used", "statement": "InferenceEngine(bn) is created iff the name of every node consists of ASCII letters, digits and underscores (ValueError otherwise), and the answers of queries do not depend on the names.", "quantifier": "all fitted networks with any node names, histories of operations and evidence", "why_tests_cant": "Names become arguments of generated functions and keyword arguments; a name that clashes with one used there (self) breaks every query, but no test uses it.", "anchors": ["causalnex/inference/inference.py: __init__, query, _create_node_function", "causalnex/ebaybbn/bbn.py: query"]}
{"id": "C99", "title": "Queries respect d-separation", "statement": "On an InferenceEngine whose current graph (arrows into intervened nodes are cut) is connected: if a variable is d-separated by the variables of some evidence from all the variables of further evidence, then adding the further evidence does not change the probabilities that query reports for that variable, whenever all the evidence together has positive probability.", "quantifier": "all fitted networks, histories of interventions, resets and queries, evidence, variables, orders in which the program visits sets", "why_tests_cant": "The statement is about every graph, every evidence and every probability table; a test compares a few answers.", "anchors": ["causalnex/inference/inference.py: query, do_intervention, reset_do", "causalnex/ebaybbn/bbn.py: query"]}
{"id": "C100", "title": "Setting a variable is like observing it when no back-door path is open", "statement": "Let do_intervention(v, s) with a state s succeed and leave the graph connected. (1) If the variables of some evidence d-separate v from y in the graph without the arrows out of v, then query(evidence) after the intervention reports for y what query(evidence + {v: s}) reported before (if that evidence has positive probability); in particular for every y if v has no parents. (2) If variables Z that are no descendants of v d-separate v from y in that graph, and every combination z of their states of positive probability is compatible with v = s, then query() after the intervention gives y = t the average over z, with weights P(z), of what query(z + {v: s}) gave before; in particular for Z the parents of v.", "quantifier": "all fitted networks, histories of interventions, resets and queries, variables, states, evidence, orders in which the program visits sets", "why_tests_cant": "It relates unboundedly many pairs of queries before and after an intervention in every graph.", "anchors": ["causalnex/inference/inference.py: do_intervention, query", "causalnex/ebaybbn/bbn.py: query"]}
{"id": "C101", "title": "Setting a variable to a distribution is mixing its states", "statement": "If do_intervention(v, {state: probability, ...}) succeeds and leaves the graph connected, then setting v to any one of its states succeeds as well, and query() after the intervention gives every state of every variable the average, with the given probabilities as weights, of what query() gives after setting v to each of its states.", "quantifier": "all fitted networks, histories of interventions, resets and queries, variables, distributions, orders in which the program visits sets", "why_tests_cant": "It relates the answers after all possible interventions on a variable in every network.", "anchors": ["causalnex/inference/inference.py: do_intervention, query", "causalnex/ebaybbn/bbn.py: query"]}
{"id": "C102", "title": "Interventions without effect", "statement": "Let do_intervention on v, with a state or a distribution, succeed and leave the graph connected. If, in the graph before the intervention with a further node whose only arrow points to v, the variables of some evidence d-separate that node from y (for instance: they d-separate v from y, or neither y nor the evidence is a descendant of v), and the evidence is possible before and after, then query(evidence) reports the same probabilities for y before and after. The same holds for reset_do(v), with the graph after the reset.", "quantifier": "all fitted networks, histories of interventions, resets and queries, variables, distributions, evidence, orders in which the program visits sets", "why_tests_cant": "It relates unboundedly many pairs of queries in every graph; the condition is about all paths.", "anchors": ["causalnex/inference/inference.py: do_intervention, reset_do, query", "causalnex/ebaybbn/bbn.py: query"]}
{"id": "C103", "title": "Building a network from a dict of conditional probabilities comes to an end", "statement": "build_bbn_from_conditionals(dict), for a dict that is not empty (IndexError otherwise) and in which every variable has a probability, returns iff every parent that is named (in the last entry of a variable that gives a probability) is itself a variable of the dict and no variable is its own ancestor. In all other cases, such as a misspelt parent, it neither returns nor raises.", "quantifier": "all dicts, orders of variables and entries", "why_tests_cant": "That a loop never ends cannot be observed by a test, and the exact condition is about all graphs.", "anchors": ["causalnex/ebaybbn/bbn.py: build_bbn_from_conditionals, build_bbn, make_node_func", "causalnex/ebaybbn/utils.py: get_original_factors"]}
{"id": "C104", "title": "Maximum likelihood estimates maximise the likelihood", "statement": "After fit_cpds(data, method='MaximumLikelihoodEstimator') the CPDs give the data (the rows in which every node has one of its states) a positive probability, and no other conditional probabilities for the same structure and the same states give it a larger one. Other conditional probabilities give it the same probability exactly if they are the same for all states of the parents that occur in the data (the estimate is unique where the data say anything).", "quantifier": "all structures, networks with any history, data frames and competing conditional probabilities", "why_tests_cant": "The competitors are a continuum, for every structure and data set.", "anchors": ["causalnex/network/network.py: fit_cpds"]}
{"id": "C105", "title": "Predictions agree with exact inference", "statement": "For a fitted network and an InferenceEngine built from it: if the states of the parents of a node in a complete row are possible evidence (always with a Bayesian estimator; with maximum likelihood if they occur in a complete row of the training data), the probabilities that predict_probability gives in this row are those query(states of the parents) reports for the node, and predict returns the state with the largest of them (the smallest such state if there are several). More generally, after any interventions that leave the graph connected, evidence on all parents of a variable and on no descendant of it gives the variable exactly the column of its current CPD.", "quantifier": "all structures, fitted networks, frames, histories of interventions, evidence, orders in which the program visits sets", "why_tests_cant": "The two answers come from unrelated code (table look-up by pandas, message passing on a join tree) and must agree for every graph and table.", "anchors": ["causalnex/network/network.py: predict, predict_probability", "causalnex/inference/inference.py: query", "causalnex/ebaybbn/bbn.py: query"]}
{"id": "C106", "title": "Predictions after fitting are the most frequent states", "statement": "After fit_cpds, with any method, predict returns in every complete row the state of the node that occurs most often in the training data (rows in which some node has no known state do not count) together with the states its parents have in the row; the smallest such state if there are several.", "quantifier": "all structures, networks with any history, training data, methods and priors, frames to predict", "why_tests_cant": "It relates prediction to counts in arbitrary training data, through estimation, normalisation and table look-up.", "anchors": ["causalnex/network/network.py: fit_cpds, predict"]}
{"id": "C107", "title": "What fitting depends on", "statement": "The CPDs after fit_cpds depend only on the structure, the node states, the arguments and on how often each combination of states of all nodes occurs in the data: the order of rows and columns, additional columns, rows with nulls or unknown states and everything done with the network before make no difference. With maximum likelihood they depend only on relative frequencies, so repeating the data changes nothing.", "quantifier": "all structures, pairs of networks with any histories, pairs of data frames", "why_tests_cant": "It compares the results for unboundedly many pairs of data sets and histories.", "anchors": ["causalnex/network/network.py: fit_cpds, cpds"]}
{"id": "C108", "title": "Answers to different queries fit together", "statement": "On an InferenceEngine whose current graph is connected: entering evidence item by item, the product of the reported probabilities of the items is the joint probability of all of them, whatever the order (Bayes' rule for two items); and for every evidence the probability reported for a state is the average of those reported with each state of another variable as further evidence, weighted with the probabilities reported for that variable (law of total probability). Both hold also for impossible evidence, for which zeros are reported.", "quantifier": "all fitted networks, histories of interventions, resets and queries, evidence, orders in which the program visits sets", "why_tests_cant": "It relates the answers of unboundedly many queries, each computed on its own.", "anchors": ["causalnex/inference/inference.py: query", "causalnex/ebaybbn/bbn.py: query"]}
{"id": "C109", "title": "Structure learning does not depend on the order of columns and rows", "statement": "For distinct column names, in exact arithmetic and with an optimiser that treats all coordinates alike: reordering the columns (with their names) and the rows of the data frame changes neither the edges and weights learned by from_pandas and from_pandas_lasso nor whether and how they fail.", "quantifier": "all data frames, reorderings, arguments (tabu edges and nodes, thresholds, penalties) and such optimisers", "why_tests_cant": "All permutations of all data frames; the learning loop runs through unboundedly many optimisations.", "anchors": ["causalnex/structure/notears.py: from_pandas, from_pandas_lasso, _learn_structure, _learn_structure_lasso"]}
{"id": "C110", "title": "What NOTEARS uses of the data", "statement": "In exact arithmetic, two nonempty arrays of finite numbers with the same number of columns and the same mean products of all pairs of columns lead to the same result of from_numpy and from_numpy_lasso, whatever the optimiser does. In particular repeating the data, changing the sign of all values and reordering the rows makes no difference.", "quantifier": "all pairs of arrays, arguments and optimisers", "why_tests_cant": "It compares runs on unboundedly many pairs of data sets of different sizes.", "anchors": ["causalnex/structure/notears.py: from_numpy, from_numpy_lasso, _learn_structure, _learn_structure_lasso"]}
{"id": "C111", "title": "Fitted probabilities and predictions in double precision", "statement": "With double precision arithmetic, every probability fit_cpds stores lies between 0 and 1 and differs from the exact estimate by a relative error of at most (number of states + 7) / 2^52; with maximum likelihood and with the K2 prior it is the exact estimate, correctly rounded, and a column sums to 1 up to 2^-53. predict still returns, with every method, exactly the most frequent state (the smallest of several): rounding creates and breaks no ties.", "quantifier": "all structures, networks with any history, training data with fewer than 2^48 rows (with states and equivalent sample size), methods and priors, frames to predict", "why_tests_cant": "Rounding depends on every count; a tie broken by rounding needs particular large counts to show up.", "anchors": ["causalnex/network/network.py: fit_cpds, predict, predict_probability"]}
{"id": "C112", "title": "From data to answers in double precision", "statement": "With double precision arithmetic in both fitting and inference, query on an InferenceEngine built from a fitted network reports for every variable and state the exact conditional probability under the exact estimates from the data, with an explicit relative error, and reports 0 exactly if that probability is 0.", "quantifier": "all structures with an edge, networks with any history, training data, methods and priors, evidence on known states, orders in which the program visits sets; networks for which the error bound is below 1", "why_tests_cant": "Errors accumulate through estimation, message passing and normalisation; no test bounds them for all networks and data.", "anchors": ["causalnex/network/network.py: fit_cpds", "causalnex/inference/inference.py: InferenceEngine, query", "causalnex/ebaybbn/bbn.py: query"]}
{"id": "C113", "title": "The size of join trees", "statement": "Triangulation eliminates nodes in the greedy order of minimal fill: next is always a node between whose neighbours the fewest edges are missing, the first by name if there are several. It adds an edge if and only if some cycle of at least four nodes has no chord (in particular none if any order of elimination needs none). For a network whose graph has no undirected cycle every clique of the join tree is part of a family (a variable and its parents), so query needs no table larger than the largest CPD.", "quantifier": "all undirected graphs, all networks, orders in which the program visits sets", "why_tests_cant": "The size of intermediate tables decides whether a query is feasible at all; the statement is about every graph.", "anchors": ["causalnex/ebaybbn/bbn.py: triangulate, priority_func, construct_priority_queue, build_join_tree"]}
{"id": "C114", "title": "What DYNOTEARS uses of time series", "statement": "In exact arithmetic the result of from_pandas_dynamic depends only on which windows of consecutive rows (a row with the p rows before it) occur in the given time series, and with what relative frequencies. The order of the list of time series, repeating the list, the times at which series start, and whether a series with a gap comes as one data frame or two make no difference. from_numpy_dynamic depends on its arrays only through the mean products of pairs of columns.", "quantifier": "all lists of time series, arguments and optimisers", "why_tests_cant": "It compares runs on unboundedly many pairs of inputs through cutting, joining and learning.", "anchors": ["causalnex/structure/dynotears.py: from_pandas_dynamic, from_numpy_dynamic", "causalnex/structure/transformers.py: DynamicDataTransformer"]}
{"id": "C115", "title": "DYNOTEARS does not depend on the order of columns", "statement": "For distinct column names, in exact arithmetic and with an optimiser that treats all coordinates alike: if from_pandas_dynamic learns a structure, then it also does after the columns of all time series are reordered in the same way, and the nodes and the weighted edges are the same.", "quantifier": "all lists of time series, reorderings, arguments (tabu edges and nodes, thresholds, penalties) and such optimisers", "why_tests_cant": "All permutations of all inputs; learning runs through unboundedly many optimisations.", "anchors": ["causalnex/structure/dynotears.py: from_pandas_dynamic", "causalnex/structure/transformers.py: DynamicDataTransformer"]}
{"id": "C116", "title": "What the PyTorch learner uses of the data", "statement": "In exact arithmetic, and with the optimiser and the initial weights given, the result of from_numpy and from_pandas (the PyTorch version) depends only on which rows occur in the data and with what relative frequencies: failures, edges, weights, biases, the fitted distribution types and later transformations are the same if the rows are reordered or the whole data set is repeated. The order in which the program visits the set of distribution types and the edges makes no difference, except for the order in which the edges are listed.", "quantifier": "all pairs of data sets, schemas with all distribution types, arguments, hidden layers, optimisers, initial weights", "why_tests_cant": "It compares runs on unboundedly many pairs of data sets of different sizes; categories, class counts and losses are computed from the rows in different ways.", "anchors": ["causalnex/structure/pytorch/notears.py: from_numpy, from_pandas", "causalnex/structure/pytorch/core.py: NotearsMLP", "causalnex/structure/pytorch/dist_type: preprocess_X, make_node_name"]}
{"id": "C117", "title": "What DAGRegressor and DAGClassifier use of the data", "statement": "In exact arithmetic, and with the optimiser given, two training sets in which the same rows (with their targets) occur with the same relative frequencies are the same to an estimator: fit fails for both in the same way, or afterwards predict, predict_proba, classes, feature importances, coefficients, intercepts and edges agree (with enforce_dag, which may have to break ties between weights, importances, coefficients and edges agree if ties are broken in the same way). In particular the order of the rows and repeating the training set make no difference.", "quantifier": "all pairs of training sets, parameters (standardisation, schema, enforce_dag, tabu, thresholds, layers), labels of any ordered type, data to predict", "why_tests_cant": "It compares the estimators fitted on unboundedly many pairs of data sets and all their predictions.", "anchors": ["causalnex/structure/pytorch/sklearn/_base.py: fit, predict", "causalnex/structure/pytorch/sklearn/reg.py: DAGRegressor", "causalnex/structure/pytorch/sklearn/clf.py: DAGClassifier"]}
{"id": "C118", "title": "Discretising in double precision", "statement": "With double precision arithmetic (no overflow or subnormal numbers) and up to 2^51 buckets: uniform split points are in increasing order between the least and the greatest value, and each is within (4(max - min) + max(|min|, |max|)) / 2^53 of the exact one. fit_transform gives every value one of the buckets, larger values never a smaller bucket, the greatest value the last bucket, and a value further than that bound from all exact split points the same bucket as exact arithmetic; so the least value is in the first bucket if the buckets are wider than the bound (otherwise it need not be). The other methods ask numpy only for quantiles between 0 and 1, in increasing order and within 3/2^53 of those wanted, so fit does not fail.", "quantifier": "all data, numbers of buckets, outlier percentiles, percentile split points", "why_tests_cant": "Rounding errors depend on the magnitudes of data and the number of buckets; whether split points stay in order and in range has to hold for all of them.", "anchors": ["causalnex/discretiser/discretiser.py: fit, transform, fit_transform"]}
{"id": "C119", "title": "What plot_dag shows", "statement": "plot_dag of a fitted DAGRegressor or DAGClassifier plots exactly the nodes and edges of the fitted graph. With enforce_dag=True the plot has no directed cycle, and an edge of the graph is left out only if it is at most as large as every edge plotted and the graph has a cycle. The estimator, the caller's dictionaries and the default styles stay as they are. Every attribute is the one given for the node or edge, else the common one given (the weak style and scale 0.5 if no arguments are given), else the normal style, else the label or the graph's own. Before fit it raises.", "quantifier": "all fitted estimators, arguments, styles and optimisers", "why_tests_cant": "It relates the plot to every graph that learning can give, including those with cycles and ties; that nothing else is changed concerns all shared objects.", "anchors": ["causalnex/structure/pytorch/sklearn/_base.py: plot_dag", "causalnex/structure/structuremodel.py: threshold_till_dag", "causalnex/plots/plots.py: plot_structure"]}
{"id": "C120", "title": "Evaluation depends on relative frequencies only", "statement": "For a fitted network and two complete test sets in which every combination of states of a node and its parents has the same relative frequency, roc_auc returns the same curve and the same area (or raises the same error) for both, and classification_report returns the same names in the same order with the same precisions, recalls, F1 scores and averages; the supports are proportional to the numbers of rows. In particular the order of the rows, repeating the whole test set, and the columns of other nodes do not matter.", "quantifier": "all fitted networks, nodes and pairs of test sets with equal relative frequencies, whatever the names of the states", "why_tests_cant": "It compares the evaluation of all pairs of test sets of any sizes; the curve is found from counts, drops points, and must not depend on the scale of these counts.", "anchors": ["causalnex/evaluation/evaluation.py: roc_auc, classification_report, _build_ground_truth", "causalnex/network/network.py: predict, predict_probability"]}
{"id": "C121", "title": "The averages in the classification report", "statement": "For a fitted network and a complete nonempty test set, classification_report holds besides the entries of the states: the fraction of rows whose predicted state is the true one, as accuracy, or as precision, recall and F1 score of the micro average if some state is neither true nor predicted in any row (always in scikit-learn 0.20); the means of the scores over all states, as macro average; and the means weighted with the supports, as weighted average, whose recall is again the fraction of right predictions. The support of every average is the number of rows. No entry of a state is overwritten.", "quantifier": "all fitted networks, nodes and complete test sets", "why_tests_cant": "Which average is reported depends on which states occur; the identities hold for all counts, including undefined scores that are reported as 0.", "anchors": ["causalnex/evaluation/evaluation.py: classification_report"]}
{"id": "C122", "title": "The law of generated counts and categories", "statement": "If the random numbers are independent and distributed as numpy documents, then in data of sem_generator and nonlinear_sem_generator for count variables and categorical variables with gumbel noise the probability of every table is the product over variables and rows of the probability of the value given the parents: for a category the softmax of the means of the categories divided by the scale of the noise (1 without parents), for a count the Poisson distribution cut at 5000 with rate the mean (its exponential if negative), mixed with zero by the zero inflation factor, and averaged over a uniform addition to the mean if there are no parents. The rows of sem_generator are independent and equally distributed. With the default logit noise the probabilities of categories are not the softmax, although the documentation calls gumbel an alias of logit.", "quantifier": "all acyclic graphs, schemas of counts and categorical variables, weights, intercepts, numbers of rows and tables", "why_tests_cant": "A test can compare frequencies of a sample within statistical error only; the law is about every table.", "anchors": ["causalnex/structure/data_generators/core.py: sem_generator, nonlinear_sem_generator, _sample_categories_from_latent, _sample_count_from_latent, _sample_poisson"]}
{"id": "C123", "title": "From a structure to answers without an exception", "statement": "After any history of edits of a StructureModel whose edges have weights, threshold_till_dag followed by get_largest_subgraph gives (unless no edge is left, when it gives None) a structure that BayesianNetwork accepts, and the network has exactly the nodes and edges of one whole connected component of the acyclic graph; the same holds for get_target_subgraph of any node that still has an edge. With a data frame that has a column for every node, at least one row and no missing values, fit_node_states_and_cpds with acceptable arguments then succeeds, InferenceEngine accepts the network (if it accepts the names), and query answers exactly for all evidence that occurs together in some row. The order of the steps matters: taking the largest subgraph before threshold_till_dag can give a structure that BayesianNetwork rejects.", "quantifier": "all histories of edits, weights, orders in which edges and components are visited, data frames, estimator settings, and evidence occurring in the data", "why_tests_cant": "the steps are tested one at a time, on a few graphs; that every output of a step is an acceptable input of the next one is a statement about all graphs and all data", "anchors": ["causalnex/structure/structuremodel.py:StructureModel.threshold_till_dag", "causalnex/structure/structuremodel.py:StructureModel.get_largest_subgraph", "causalnex/structure/structuremodel.py:StructureModel.get_target_subgraph", "causalnex/network/network.py:BayesianNetwork.__init__", "causalnex/network/network.py:BayesianNetwork.fit_node_states_and_cpds", "causalnex/inference/inference.py:InferenceEngine.query"]}
{"id": "C124", "title": "The law of random structures", "statement": "If np.random gives independent numbers with the documented distributions and w_min is not 0, then for graph_type 'erdos-renyi' with degree between 0 and num_nodes - 1, the probability that generate_structure returns exactly the edges of a set G, with weights in given sets, is p^|G| * (1 - p)^(num_nodes choose 2 - |G|) * (number of orders of the nodes in which all edges of G point forward) / num_nodes! times the product of the probabilities of the weights, where p = degree / (num_nodes - 1) and the weights are uniform on [w_min, w_max] with a fair sign. Hence every edge has probability p / 2 in either direction, and the expected number of edges at every node is degree, as documented. For 'full' every pair is joined and all orders have the same probability. For 'barabasi-albert' the probability is that of preferential attachment: m = round(degree / 2), every node but the first attaches m times, to an earlier node with probability proportional to one plus the number of times earlier nodes have attached to it, and then the nodes are renamed at random; here the documented expected degree is not met: for degree = 2 * m the average number of edges at a node is less than degree whatever numbers are drawn.", "quantifier": "all numbers of nodes, degrees, weight ranges, probability spaces on which such random numbers live, graphs and measurable sets of weights", "why_tests_cant": "tests compare the number of edges of a few seeded graphs with the expected one; a test cannot determine a probability, let alone for all graphs and sizes", "anchors": ["causalnex/structure/data_generators/core.py: generate_structure"]}
{"id": "C125", "title": "NOTEARS recovers linear models with errors of equal size", "statement": "If the columns of X follow acyclic linear equations with weights V whose errors are uncorrelated and have the same mean square, then no other acyclic weights have as small a squared error as V. Moreover for every precision there is a tolerance such that, if the errors are uncorrelated and of the same size up to that tolerance (relative to their size), h_tol is below it, the optimiser never returns a point worse than V, and no warning about convergence is given, then from_numpy returns a graph with exactly the edges of V and nearly their weights, provided w_threshold separates the nonzero weights from zero with a margin of that precision; the same for from_numpy_lasso if beta is small. With enough iterations and a tolerance that is not too small for the data no warning is given. If the errors have different sizes this fails: there are data that follow x1 = x0 / 2 + error with uncorrelated errors for which the graph with the edge reversed fits better.", "quantifier": "all numbers of rows and columns, data, acyclic weights, precisions, optimisers, and parameters", "why_tests_cant": "tests learn from one simulated table and compare with the structure it was simulated from; that the result is determined by the data, and how it depends on the tolerance, is a statement about all acyclic weights and all data", "anchors": ["causalnex/structure/notears.py: from_numpy, from_numpy_lasso, _learn_structure, _learn_structure_lasso"]}
{"id": "C126", "title": "NOTEARS learns the graph from data generated with it", "statement": "For every acyclic graph whose edges have weights and every precision there is a tolerance such that, for every distribution of the noise with mean 0 and a finite positive variance, generate_continuous_dataframe with noise_scale=1 and no intercept generates, with a probability as close to 1 as desired if there are enough rows, data from which from_pandas learns the graph: whenever a run with h_tol below that tolerance gives no warning and its optimiser never returns a point worse than the weights of the graph, the result has the nodes and exactly the edges of the graph, with weights within the precision, provided w_threshold separates the weights from zero with a margin of that precision. If in addition h_tol and max_iter are large enough for the variance of the noise, the run returns without a warning.", "quantifier": "all acyclic weighted graphs, precisions, distributions of the noise with mean 0 and finite variance, probabilities, numbers of rows from some number on, probability spaces, optimisers and parameters", "why_tests_cant": "tests generate a table with one seed and compare the learned graph; that learning succeeds with a probability that tends to 1 is a statement about the distribution of the generated data and all graphs", "anchors": ["causalnex/structure/data_generators/wrappers.py: generate_continuous_dataframe", "causalnex/structure/data_generators/core.py: sem_generator", "causalnex/structure/notears.py: from_pandas, from_numpy"]}
{"id": "C127", "title": "Tables fitted to enough rows are close to the probabilities behind the data", "statement": "If the rows of the data are independent draws from a distribution that factorises along the structure of the network with some conditional probabilities, then for every precision and every probability below 1 there is a number of rows from which on, with at least that probability, fit_cpds succeeds, every entry of every table whose parent states are possible is within the precision of the conditional probability, and every answer of an inference engine created from the network, for evidence that is possible, is within the precision of the true conditional probability. This holds for MLE, K2 and BDeu with a positive equivalent sample size, also if some of the conditional probabilities are zero.", "quantifier": "all structures, node states, conditional probabilities, estimators, precisions, probabilities, probability spaces with such rows, numbers of rows from some number on, and queries", "why_tests_cant": "tests fit one table of data and compare some entries; convergence in probability is a statement about all distributions and all large numbers of rows", "anchors": ["causalnex/network/network.py: BayesianNetwork.fit_cpds, cpds", "causalnex/inference/inference.py: InferenceEngine.query"]}
{"id": "C128", "title": "Samples drawn in one call are independent draws from the conditional distribution", "statement": "If the values of random.random() are independent, uniform on [0, 1) and independent of the results of random.choice, then the probability that the n samples returned by draw_samples(query, n) are n given complete assignments is the product of the conditional probabilities of these assignments given the evidence. This does not depend on how random.choice picks the next variable, and the cache of results shared by the samples does not make them dependent.", "quantifier": "all networks, evidence of positive probability, numbers of samples, tables of assignments, distributions of the variable choices, and set iteration orders", "why_tests_cant": "independence and the distribution of samples are statements about all random outcomes at once; a test can only look at frequencies", "anchors": ["causalnex/ebaybbn/bbn.py: BBN.draw_samples"]}
{"id": "C129", "title": "A network refitted to samples of a fitted network is close to it", "statement": "Take a network fitted to data, draw n samples from it with draw_samples, and fit a network of the same structure and node states to the samples. For every precision and every probability below 1 there is a number of samples from which on, with at least that probability, the refit succeeds, has tables for the same nodes and parents, every entry whose parent states are possible is within the precision of the entry of the first network, and the answers of an inference engine created from the refitted network are within the precision of the conditional probabilities of the first network for all evidence that is possible there.", "quantifier": "all structures, node states, training data, estimators for both fits, precisions, probabilities, random sources, numbers of samples from some number on, set iteration orders and queries", "why_tests_cant": "the statement joins fitting, junction-tree inference, sampling and refitting and holds with high probability for all large numbers of samples; tests can compare one run with loose tolerances", "anchors": ["causalnex/ebaybbn/bbn.py: BBN.draw_samples", "causalnex/network/network.py: BayesianNetwork.fit_cpds, cpds", "causalnex/inference/inference.py: InferenceEngine.query"]}
{"id": "C130", "title": "The lasso penalty decides whether any edge is learned, at the largest mean product of columns", "statement": "from_numpy_lasso with a positive beta returns a graph without edges if beta is at least the absolute mean, over the rows, of the product of every two columns between which an edge is permitted, provided the optimiser never returns a point worse than zero weights. With an optimiser that finds minima and without a threshold the converse holds: a graph without edges is returned only then. For from_numpy_dynamic the same holds with lambda_w for columns at the same time and lambda_a for a column and an earlier one. With positive penalties the optimisation problems have minima for all data.", "quantifier": "all finite data, all positive penalties, all excluded edges, parents and children, all optimisers with the named property, all tolerances and positive iteration limits, all lags", "why_tests_cant": "the threshold is a statement about all data and all penalties, in both directions; a test can only compare a few values of beta on fixed data", "anchors": ["causalnex/structure/notears.py: from_numpy_lasso, _learn_structure_lasso", "causalnex/structure/dynotears.py: from_numpy_dynamic, _learn_dynamic_structure"]}
{"id": "C131", "title": "DYNOTEARS recovers dynamic linear models with errors of equal size", "statement": "If the variables follow linear equations in the variables of the same and of earlier time steps, with weights u that are acyclic within a time step, whose errors are uncorrelated with one another and with the earlier values and have the same mean square, and no linear combination of the earlier values vanishes, then no other weights that are acyclic within a time step have as small a squared error as u. Moreover for every precision there is a tolerance such that, if all this holds up to that tolerance (relative to the size of the errors), h_tol and the penalties are below it, the optimiser never returns a point worse than u, and no warning about convergence is given, then from_numpy_dynamic returns a graph with exactly the edges of u, within and between time steps, and nearly their weights, provided w_threshold separates the nonzero weights from zero with a margin of that precision. With enough iterations and a tolerance that is not too small for the data no warning is given.", "quantifier": "all numbers of rows, variables and lags, all data, all weights acyclic within a time step, all precisions, optimisers and parameters", "why_tests_cant": "tests learn from one simulated series and compare with the structure it was simulated from; that the result is determined by the data is a statement about all weights and all data", "anchors": ["causalnex/structure/dynotears.py: from_numpy_dynamic, _learn_dynamic_structure, _reshape_wa, _matrices_to_structure_model"]}
{"id": "C132", "title": "Displaying a plot touches only its own axes", "statement": "display_plot_mpl on given axes adds the rendered picture to these axes, removes their frame, returns (None, axes), and makes or changes no figure and no other axes. Without axes it makes exactly one new figure, of width columns times pixel_size_in and height rows times pixel_size_in, with one axes that shows only the picture, without frame and margins, and returns both; everything that existed stays the same. It succeeds exactly if matplotlib is installed, the graph can be rendered and decoded, the picture is in colour, and the size is not negative; otherwise it raises (ImportError before anything is rendered, ValueError for a grey picture even on given axes) and leaves everything as it was. After any sequence of calls every axes shows the pictures it had and then those of the successful calls that returned it, in order, and there are as many new figures as successful calls without axes. display_plot_ipython returns the rendered picture, or raises ImportError exactly if IPython is missing.", "quantifier": "all graphs, renderers, decoders, pictures, layouts, sizes, states of matplotlib, and sequences of calls", "why_tests_cant": "tests display one graph on one axes with a mocked renderer; that nothing else changes, also after errors and over sequences, is a statement about all states", "anchors": ["causalnex/plots/display.py: display_plot_ipython, display_plot_mpl"]}
{"id": "C133", "title": "The PyTorch version recovers linear models with errors of equal size", "statement": "If all columns are continuous, there are no hidden layers, and the columns follow acyclic linear equations with weights V (with constants if use_bias is set), then for every precision there is a tolerance such that, if the errors of the equations are uncorrelated and of equal mean square up to that tolerance, the lasso and ridge penalties of V and the final acyclicity score are below it and the optimiser never returns a point worse than these equations, the graph returned by the PyTorch from_numpy has exactly the edges of V, and their mean effects are nearly the weights of V, provided w_threshold separates the nonzero weights from zero with a margin of that precision. With enough iterations no warning is given and the final score is at most 1e-8, or at most the square root of 2 L / 1e15, where L is half the mean squared error of the equations plus their penalty.", "quantifier": "all numbers of rows and columns, all data, all acyclic weights, all schemas of continuous columns, all precisions, optimisers, initial parameters and penalties", "why_tests_cant": "tests learn from one simulated table and compare with the structure it was simulated from; that the result is determined by the data is a statement about all weights and all data", "anchors": ["causalnex/structure/pytorch/notears.py: from_numpy", "causalnex/structure/pytorch/core.py: NotearsMLP.fit, _h_func, _l1_reg, _l2_reg, forward, adj", "causalnex/structure/pytorch/dist_type/continuous.py: DistTypeContinuous.loss"]}
{"id": "C134", "title": "Predictions after fitting to enough data are the best possible ones", "statement": "If the rows of the training data are independent draws from a distribution that factorises along the structure of the network, then for every probability below 1 there is a number of rows from which on, with at least that probability, fit_cpds succeeds and predict returns, in every complete row with possible states of the parents, a state of the node that is most probable given its parents in the distribution; and in a further row of the distribution the prediction is right with at least the probability of any other rule that predicts the node from the values of all nodes except itself and its descendants.", "quantifier": "all structures, node states, conditional probabilities (also zero), nodes, ways to fit, data to predict from, and rules", "why_tests_cant": "tests compare predictions with labels on one data set; that no rule does better, and from how many rows on, quantifies over all distributions and all rules", "anchors": ["causalnex/network/network.py: BayesianNetwork.fit_cpds, predict, _predict_from_complete_data"]}
{"id": "C135", "title": "Causal effects estimated from enough data are close to the true ones", "statement": "If the rows of the data are independent draws from a distribution that factorises along the structure, then for every node with children, every distribution to set it to, every precision and every probability below 1 there is a number of rows from which on, with at least that probability: fit_cpds succeeds, an engine created from the network accepts do_intervention, and, if queries work after it at all (the intervention does not leave the network in pieces), every answer for evidence that is possible after the intervention is within the precision of the probability in the distribution where only the conditional distribution of the node is replaced by the given one. This needs overlap: each state that gets a positive probability occurs together with all possible states of the parents.", "quantifier": "all structures, node states, conditional probabilities (also zero), nodes, distributions for the intervention with overlap, ways to fit, evidence, precisions", "why_tests_cant": "tests compare an intervention on one fitted network with fixed numbers; convergence to the effects of the distribution behind the data quantifies over all distributions and numbers of rows", "anchors": ["causalnex/network/network.py: BayesianNetwork.fit_cpds", "causalnex/inference/inference.py: InferenceEngine.do_intervention, query"]}
{"id": "C136", "title": "DAGRegressor recovers linear models with errors of equal size", "statement": "If a table of continuous features and a target follow acyclic linear equations whose errors are (nearly) uncorrelated and (nearly) of the same size, then fit of a DAGRegressor without hidden layers and without standardisation, with small penalties and an optimiser that does not miss these equations, gives coefficients coef_ near the weights of the equation for the target (zero exactly where these are zero, if the threshold is above the accuracy and below the weights), and predict gives for every new row nearly what the true equation, with its constant if fit_intercept, gives: the difference is at most the accuracy times the size of the errors plus the distance of the row from the means of the features.", "quantifier": "for every number of features, acyclic weights and accuracy there is a tolerance such that it holds for all data, sizes of errors, penalties, thresholds, excluded edges, optimisers, starting points and new rows", "why_tests_cant": "It says what is learned and predicted for infinitely many data sets, models and new rows, and the tolerance must not depend on the data.", "anchors": ["causalnex/structure/pytorch/notears.py: from_numpy", "causalnex/structure/pytorch/core.py: NotearsMLP.fit, _h_func, _l1_reg, _l2_reg, forward, adj", "causalnex/structure/pytorch/dist_type/continuous.py: DistTypeContinuous.loss", "causalnex/structure/pytorch/sklearn/_base.py: DAGBase.fit, predict, coef_, intercept_", "causalnex/structure/pytorch/sklearn/reg.py: DAGRegressor"]}
{"id": "C137", "title": "NOTEARS is consistent: from enough independent rows it learns the equations behind them", "statement": "Let rows of data, of any origin, follow acyclic linear equations with errors that are independent and of the same distribution from row to row, and uncorrelated and of the same size from column to column. Then almost surely, for all arrays made of enough of these rows, from_numpy and from_numpy_lasso learn exactly the edges of the equations, with weights as near to the true ones as required, whenever the optimiser does not miss these weights, no warning is given, h_tol (and the lasso penalty) are below a fixed tolerance and the weights are not too close to w_threshold. For the n rows of generate_continuous_data (default noise scale, no intercepts, no kernel, noise of mean 0 with finite fourth moment) the probability that this fails is at most c / n with a constant c that does not depend on n.", "quantifier": "for all acyclic weights, required accuracies, distributions of the errors, numbers of rows, optimisers, thresholds and excluded edges; tolerance and constant depend on the weights, the accuracy and the distribution only", "why_tests_cant": "It is about all sufficiently large data sets and the probability over all possible draws; a test sees one draw of one size.", "anchors": ["causalnex/structure/data_generators/wrappers.py: generate_continuous_data", "causalnex/structure/data_generators/core.py: sem_generator", "causalnex/structure/notears.py: from_numpy, from_numpy_lasso, _learn_structure, _learn_structure_lasso"]}
{"id": "C138", "title": "DYNOTEARS is consistent: from a long enough time series it learns the dynamic equations behind it", "statement": "Let a time series, of any origin, follow linear equations between the variables of the same and of the p earlier time steps, acyclic within a time step, with errors that are independent of all earlier values, of mean 0, uncorrelated and of the same size, with bounded fourth moments, and let the mean squares of the values stay bounded. Then the probability that from_numpy_dynamic, given the n rows of the first n + p observations, does not learn exactly the edges of these equations with weights as near as required is at most c / n, with a constant c that does not depend on n, whenever the optimiser does not miss these weights, no warning is given, h_tol and the penalty of the true weights are below a fixed tolerance and the weights are not too close to w_threshold; and almost surely it learns them from all sufficiently long initial parts of the series. The same holds for from_pandas_dynamic on a data frame with one row per time step, the edges named after the columns and excluded edges given by name. In particular it holds for the columns of generate_dataframe_dynamic (any burn-in, noise of mean 0 and finite fourth moment, stable weights), the weights read by position; with one lag these are the weights between the nodes of the same names, with two variables and two lags they are not (C59).", "quantifier": "for all numbers of variables and lags, weights that are acyclic within a time step, required accuracies, distributions of the series, lengths, optimisers, penalties, thresholds and excluded edges; tolerance and constant depend on the weights, the accuracy and the bounds of the moments only", "why_tests_cant": "It is about all sufficiently long series and the probability over all possible draws; a test sees one draw of one length, and the rows of a series are not independent.", "anchors": ["causalnex/structure/dynotears.py: from_numpy_dynamic, from_pandas_dynamic, _learn_dynamic_structure", "causalnex/structure/transformers.py: DynamicDataTransformer", "causalnex/structure/data_generators/wrappers.py: generate_dataframe_dynamic"]}
{"id": "C139", "title": "Names of nodes and states make no difference", "statement": "If the nodes of a structure and their states are renamed (injectively), in the structure, the node states, the data and the arguments of all later calls, then fit_cpds succeeds for the one iff for the other and gives the same conditional probabilities under the new names; and engines built from the two fitted networks behave alike: after the same history of do_intervention, reset_do and query, the next do_intervention or reset_do is accepted or rejected alike, with the same kind of exception, and the next query either raises for both or answers the same probabilities. The sorted order of the names, which decides the order of parents, states and tables, has no effect on any probability. (Names the engine accepts; the name self is an exception, C98.)", "quantifier": "all structures, node states, data sets, estimation methods, injective renamings of nodes and of the states of each node, orders of rows, edges and evidence, histories of operations and visiting orders", "why_tests_cant": "Tests use a few fixed names; the claim compares every run with all its renamings.", "anchors": ["causalnex/network/network.py:BayesianNetwork.fit_cpds", "causalnex/inference/inference.py:InferenceEngine", "causalnex/ebaybbn/bbn.py"]}
{"id": "C140", "title": "Refitting on a growing data set settles down to the truth", "statement": "Let rows arrive one after the other, as independent draws from a distribution that factorises along the structure of the network, and let the network be refitted to all rows so far. Then with probability 1, for every way to fit it, the sequence of fitted networks converges: for every precision there is a number of rows from which on, at every later refit, fit_cpds succeeds and all table entries with possible parent states and all answers to possible evidence are within the precision of the true conditional probabilities; from some number of rows on all predictions are optimal for good; and for all interventions with overlap (C135) the answers after the intervention converge to the effects. Unlike C127, C134 and C135, which bound the probability of a bad result for each number of rows separately, this excludes that a user who refits forever sees a bad result again and again.", "quantifier": "all structures, node states, conditional probabilities, infinite sequences of rows outside one set of probability 0, and for each of them all ways to fit, precisions, later numbers of rows, evidence, nodes, rules and interventions", "why_tests_cant": "The claim is about infinite histories of refits and holds outside a set of probability 0; a test sees finitely many rows of one history.", "anchors": ["causalnex/network/network.py:BayesianNetwork.fit_cpds", "causalnex/network/network.py:BayesianNetwork.predict", "causalnex/inference/inference.py:InferenceEngine.query", "causalnex/inference/inference.py:InferenceEngine.do_intervention"]}
{"id": "C141", "title": "Scores on a large test set are close to the true performance", "statement": "Let a network be fitted in any way, and let independent test rows with the same, arbitrary distribution over states of a node and its parents arrive one after the other. Then with probability 1 the scores for the first n rows converge. In classification_report the share of a state tends to its probability; its precision to the probability that it is the true state among the rows for which it is predicted; its recall to the probability that it is predicted among the rows where it is the true state; its F1 score to the one of these two; and the accuracy (the entry accuracy, or micro avg, and the recall in weighted avg) to the probability that the predicted state is the true one. If every state has positive probability and scikit-learn is not of version 0.20, there is an entry accuracy from some n on. The area that roc_auc returns tends, if the labels of the states are ordered as the states are (see C33), to the probability that the true state of a random row is given a higher probability than a random wrong state of another random row, a tie counting half.", "quantifier": "all structures, data to fit on, ways to fit, nodes, distributions of the test rows, infinite sequences of test rows outside one set of probability 0, precisions, later numbers of rows, heaps, further columns of the frames, and orders in which pandas returns states", "why_tests_cant": "The claim is about limits of scores, for every distribution of the rows, outside a set of probability 0; a test computes scores of finitely many rows.", "anchors": ["causalnex/evaluation/evaluation.py:classification_report", "causalnex/evaluation/evaluation.py:roc_auc", "causalnex/network/network.py:BayesianNetwork.predict", "causalnex/network/network.py:BayesianNetwork.predict_probability"]}
{"id": "C142", "title": "How many rows are enough to fit a network", "statement": "Let the rows be independent draws from a distribution that factorises along the structure of the network, let M be the number of entries of all CPDs, 0 < epsilon <= 1, p > 0 and pi > 0, and let n be at least 2 log(3 M / p) / (epsilon pi)^2. Then with probability at least 1 - p fit_cpds on n rows succeeds and, in all tables at once, every entry for states of the parents that have probability at least pi is within epsilon of the true conditional probability, for maximum likelihood; for the Bayesian estimators within epsilon + 2 c / (n pi), where c is the number of observations that the prior adds for each combination of states of the parents (the number of states of the node for K2; equivalent_sample_size divided by the number of combinations for BDeu).", "quantifier": "all structures, node states, conditional probabilities, probability spaces with such rows, ways to fit, precisions epsilon, probabilities p and pi, numbers of rows n above the bound, further columns of the frame, nodes, states of the node and of its parents", "why_tests_cant": "An explicit bound on the probability of a bad fit for every network, distribution and number of rows; a test can at most estimate the frequency of bad fits for one of them.", "anchors": ["causalnex/network/network.py:BayesianNetwork.fit_cpds", "causalnex/network/network.py:BayesianNetwork.cpds"]}
{"id": "C143", "title": "Frequencies in a sample are close to the answers of a query", "statement": "Let the values of random.random() be independent and uniform on [0, 1), and let the evidence have positive probability. Draw n samples given the evidence and query the network with the same evidence. Then with probability at least 1 - 2 D exp(-2 n epsilon^2), where D is the number of states of all variables, n samples are returned and, for all variables and states at once, the fraction of samples with this state is within epsilon of the probability that the query reports, however variables are picked by random.choice.", "quantifier": "all networks, evidence of positive probability, numbers of samples n >= 1, precisions epsilon >= 0, probability spaces with such random numbers, distributions of the choices of random.choice, iteration orders of sets", "why_tests_cant": "A bound on the probability of a misleading sample for every network, evidence and number of samples; a test can at most estimate the frequency of misleading samples for one of them.", "anchors": ["causalnex/ebaybbn/bbn.py: draw_samples, query"]}
{"id": "C144", "title": "Quantile buckets are balanced, on the fitted data and on the population", "statement": "For a Discretiser with method quantile, outlier or percentiles the user asks for a fraction of the data in each bucket: 1 / num_buckets; the outlier fraction, the rest and the outlier fraction again; or the differences of consecutive percentiles. (a) If the fitted data are distinct, fit_transform puts into each bucket that fraction of the data up to less than 2 values. (b) If the fitted data are n independent draws from a distribution without atoms and there are m split points, then with probability at least 1 - 2 m exp(-2 n epsilon^2) a new value from the same distribution falls into each bucket with the wanted probability up to 2 (epsilon + 1 / n), for all buckets at once. With ties (a) fails: if all data are equal, they all get the last bucket.", "quantifier": "all discretisers with one of these methods, reachable by constructor and earlier fits, all non-empty data (a), all distributions without atoms, probability spaces with independent draws, numbers of draws n and precisions epsilon >= 0 (b), all buckets", "why_tests_cant": "(a) ranges over all data; (b) bounds a probability for every distribution and number of draws. Tests try single data sets.", "anchors": ["causalnex/discretiser/discretiser.py: Discretiser.fit, transform"]}
{"id": "C145", "title": "Markov equivalent structures give the same answers", "statement": "Two structures have the same links (edges regardless of direction) and the same colliders (a -> c <- b where a and b are not linked). Two networks with these structures and the same node states are fitted to the same data, with MaximumLikelihoodEstimator or with BayesianEstimator and the BDeu prior. If fitting succeeds for one, it succeeds for the other, an inference engine can be created from both, and every query gets the same answer from both or raises for both. Data therefore never favour one of the two causal readings in answers without interventions. With the K2 prior this fails, and so it does if only the links agree.", "quantifier": "all pairs of acyclic structures with the same links and colliders, all data, node states, orders of states and edges, priors BDeu with any positive equivalent sample size, all queries and evidence, all set iteration orders in the two engines", "why_tests_cant": "The two fits compute different tables; equality of all answers ranges over all structures, data and evidence, and rests on a theorem about graphs. Tests compare single pairs.", "anchors": ["causalnex/network/network.py: BayesianNetwork.fit_cpds", "causalnex/inference/inference.py: InferenceEngine.query"]}
{"id": "C146", "title": "Without colliders, answers about linked nodes are relative frequencies in the data", "statement": "A network whose structure has no collider (a -> c <- b with a and b not linked) is fitted with MaximumLikelihoodEstimator. For evidence on nodes that are linked to each other and to a node v (in particular for no evidence), and which occurs in the data, the query reports for each state of v exactly the relative frequency of this state among the rows with the evidence. This concerns also evidence on children, where no fitted table has the entry. With a collider this fails already for queries without evidence.", "quantifier": "all acyclic connected structures without colliders, all data, node states, evidence seen in the data on pairwise linked nodes, nodes v linked to all of them, states of v, set iteration orders", "why_tests_cant": "The answer is a sum of products of many table entries; that it collapses to a quotient of two counts ranges over all structures, data and evidence. Tests compare single cases.", "anchors": ["causalnex/network/network.py: BayesianNetwork.fit_cpds", "causalnex/inference/inference.py: InferenceEngine.query"]}
{"id": "C147", "title": "More edges never lower the likelihood of the training data; equivalent structures have the same likelihood", "statement": "Two networks with the same nodes and states are fitted with MaximumLikelihoodEstimator to the same data. If the second structure has all edges of the first, the probability that its tables give the data (rows without unknown values) is at least that of the first, which is positive. If the structures are equivalent (same links, same colliders), the tables give every data set, also one that was not used for fitting, the same probability; this holds with the Bayesian estimator with prior BDeu as well. The prior K2 has neither property. So the likelihood on the training data alone cannot tell equivalent structures apart and always favours the larger structure.", "quantifier": "all pairs of acyclic connected structures with the edges of one in the other, or equivalent; all data, node states listed in any order", "why_tests_cant": "Compares two fits on all data and all pairs of structures. A test compares two scores.", "anchors": ["causalnex/network/network.py: BayesianNetwork.fit_cpds, BayesianNetwork.cpds"]}
{"id": "C148", "title": "Interventions cannot tell equivalent structures apart, if the nodes have the same parents", "statement": "Two networks with equivalent structures (same links, same colliders) are fitted to the same data with MaximumLikelihoodEstimator or with the prior BDeu, and an engine is created for each. Any sequence of calls of do_intervention, reset_do and query is made on both, where interventions are only made on nodes that have the same parents in both structures. Then at every point the next such intervention and the next reset_do is accepted or rejected alike, and every query either raises for both engines or gives the same probabilities. For nodes with different parents this is false: an example gives 3/4 and 1.", "quantifier": "all pairs of equivalent connected acyclic structures, all data, node states listed in any order, all histories of calls with interventions on nodes with equal parents, all evidence", "why_tests_cant": "Compares two engines over all histories and all data. A test compares two answers.", "anchors": ["causalnex/inference/inference.py: InferenceEngine.do_intervention, InferenceEngine.reset_do, InferenceEngine.query", "causalnex/network/network.py: BayesianNetwork.fit_cpds"]}
{"id": "C149", "title": "From data to the answers under interventions", "statement": "A network is fitted to data, an engine is created, and do_intervention with distributions and reset_do are called any number of times. The calls are all accepted exactly if every node named exists, every distribution is a distribution over the states of its node, and every node that is set has, at that moment, a child that is not set. Afterwards queries raise if the structure without the arrows into nodes that are set is not in one piece. Otherwise the answer to a query with possible evidence is the conditional probability under the product in which every node that is set has the distribution last given to it, and every other node its estimate from the rows of the data.", "quantifier": "all data, structures, fitting methods, all sequences of interventions and resets, all evidence that is possible", "why_tests_cant": "Quantifies over all data and all sequences of calls. Tests check single interventions on one network.", "anchors": ["causalnex/inference/inference.py: InferenceEngine.do_intervention, InferenceEngine.reset_do, InferenceEngine.query", "causalnex/network/network.py: BayesianNetwork.fit_cpds, BayesianNetwork.cpds"]}
{"id": "C150", "title": "The effects of several interventions, from enough data", "statement": "The rows of the data are drawn independently from a distribution that factorises along the structure of the network. A sequence of do_intervention calls with distributions and reset_do calls is fixed that the engine accepts and that leaves the network in one piece, and states of the parents of a node that is not set that are possible after the interventions are also possible without them. For every tolerance and error probability there is a number of rows from which on, with at least that probability, fitting, reading the tables, creating the engine and making all the calls succeeds, and every query with evidence that is possible after the interventions succeeds with answers within the tolerance of the true ones: those of the distribution in which the conditional distributions of the nodes that are set are replaced by the distributions last given. For a growing data set the answers converge almost surely, for all such sequences of calls at once.", "quantifier": "all structures, true distributions, fitting methods, sequences of interventions and resets, evidence, tolerances and error probabilities", "why_tests_cant": "A statement about a limit and about all distributions of the data. A test draws one data set and makes one intervention.", "anchors": ["causalnex/network/network.py: BayesianNetwork.fit_cpds, BayesianNetwork.cpds", "causalnex/inference/inference.py: InferenceEngine.do_intervention, InferenceEngine.reset_do, InferenceEngine.query"]}
{"id": "C151", "title": "A network trained on enough data reaches the best possible accuracy on a large test set", "statement": "Training rows and test rows are sequences of independent draws from a distribution that factorises along the structure of the network; how the two sequences depend on each other is arbitrary, they may even be the same rows. Let c be the largest probability of predicting a node correctly that any rule has that sees all nodes except this one and its descendants. Then with probability 1, for every method and every precision there is a number such that, for at least so many training rows and at least so many test rows, fit_cpds succeeds and the accuracy in classification_report (the entry accuracy or micro avg, and the recall in weighted avg) is within the precision of c.", "quantifier": "all structures, node states, conditional probabilities, nodes, sequences of training and test rows outside one set of probability 0, and for each of them all ways to fit, precisions, larger numbers of rows, heaps, further columns of the frames", "why_tests_cant": "A statement about limits, all distributions and all competing rules. A test trains and evaluates once.", "anchors": ["causalnex/network/network.py: BayesianNetwork.fit_cpds, BayesianNetwork.predict", "causalnex/evaluation/evaluation.py: classification_report"]}
{"id": "C152", "title": "The law of random dynamic structures", "statement": "If np.random gives independent numbers with the documented distributions, w_min_intra is not 0, w_min_inter is positive and w_decay is not 0, then for graph_type_inter 'erdos-renyi' with degree_inter between 0 and num_nodes, the probability that generate_structure_dynamic returns exactly the edges of a set G within the present and of a set G' from lagged to present nodes, with weights in given sets, is the probability that generate_structure returns the edges and weights of G (C124) times q^|G'| * (1 - q)^(p * num_nodes^2 - |G'|) times the product of the probabilities of the weights, where q = degree_inter / num_nodes and the weight of an edge from lag k is a number uniform on [w_min_inter, w_max_inter] divided by w_decay^(k - 1), with a fair sign. Hence every edge from the past has probability degree_inter / num_nodes (the documentation says degree / (num_nodes - 1)), the expected number of edges that leave a lagged node is degree_inter, as documented, and the expected number of edges from the past into a present node is p * degree_inter. For 'full' all edges from the past are there.", "quantifier": "all numbers of nodes and lags, degrees in range, intra-slice graph types, weight ranges, decays, sets of edges and measurable sets of weights", "why_tests_cant": "A statement about probabilities: a test sees single draws. It holds for all sizes and all graphs.", "anchors": ["causalnex/structure/data_generators/wrappers.py: generate_structure_dynamic, _generate_inter_structure"]}
{"id": "C153", "title": "Effects of actions through a mediator, with a hidden common cause (front-door adjustment)", "statement": "Let do_intervention(x, s) be accepted and leave the graph in one piece. Let m be a node such that every way from x to y along arrows goes through m, nothing connects x and m in the graph without the arrows out of x, and x separates m from y in the graph without the arrows out of m. If x = s is possible and every state of m that is possible with x = s is possible with every possible state of x, then what query() reports for y after the intervention can be computed from queries on x, m and y before it: P(y = t) is the sum over the states k of m of what query({x: s}) gives for m = k times the sum over the states r of x of what query() gives for x = r times what query({x: r, m: k}) gives for y = t. Common causes of x and y are not asked about.", "quantifier": "all fitted networks, reachable engine states (earlier interventions, resets and queries), nodes x, m, y that meet the criterion, and states", "why_tests_cant": "The criterion and the formula range over all graphs and tables; a test checks one network.", "anchors": ["causalnex/inference/inference.py: InferenceEngine.do_intervention, InferenceEngine.query"]}
{"id": "C154", "title": "The PyTorch version and DAGRegressor are consistent: from enough independent rows they learn the equations behind them", "statement": "Let rows of numbers be independent draws from a distribution, of any origin, in which the columns follow acyclic linear equations with constants, with errors of mean 0 that are uncorrelated and of the same size. Then almost surely, for all tables made of enough of these rows: (1) from_numpy of the PyTorch version, without hidden layers and with all columns continuous, learns exactly the edges of the equations with mean effects as near to the weights as required, if w_threshold separates these from 0, and its network predicts every column of every row as nearly as required as the true equation with its true constant does; (2) a DAGRegressor without hidden layers and standardisation, fitted to the table with one column as target, has coefficients as near as required to the weights of the equation for the target (0 exactly where they are 0, if the threshold separates them), and its predictions for new rows are as near as required to what the true equation gives. Required in both cases: constants are allowed for (use_bias, fit_intercept) unless they are 0, the penalties of the true weights and the final acyclicity score are below a fixed tolerance, and the optimiser does not miss the true weights.", "quantifier": "all numbers of columns, acyclic weights, constants, sizes of errors, distributions of the rows, required accuracies, optimisers, initial values, penalties, thresholds, excluded edges and new rows; the tolerance depends on the weights, the size of the errors and the accuracy only", "why_tests_cant": "It is about all sufficiently long tables and all draws except a set of probability 0; a test sees one table.", "anchors": ["causalnex/structure/pytorch/notears.py: from_numpy", "causalnex/structure/pytorch/sklearn/reg.py: DAGRegressor", "causalnex/structure/pytorch/sklearn/_base.py: DAGBase.fit"]}
{"id": "C155", "title": "With a wrong structure the network learned is the best one with that structure, and answers and predictions within it stay right", "statement": "Let a Bayesian network with any structure be refitted to a growing data set of independent rows with the same distribution, which need not have the structure of the network. Then almost surely, whatever the method and the required accuracy, for all sufficiently large data sets: (1) fitting succeeds and every table entry is within the accuracy of the conditional probability of the state given the states of the parents (1 / number of states if these are impossible); (2) every answer of the inference engine to evidence that is possible in the network with these conditional probabilities is within the accuracy of the conditional probability in that network, which of all networks with the structure has the greatest expected log-likelihood of a row; (3) if no node has two parents that are not linked, the answer for a node given evidence on nodes that are linked with it and with each other is within the accuracy of the true conditional probability, however wrong the structure is elsewhere; (4) predict returns a state that is most probable given the parents, and no rule that uses the parents only is right more often. Answers for nodes that are not linked may stay wrong for ever: there is a structure and a distribution with true probability 1 where the answer converges to 1/2.", "quantifier": "all acyclic structures, states, distributions of rows, methods and their settings, required accuracies, sets of evidence and data sets to predict; all draws except a set of probability 0", "why_tests_cant": "It is about all distributions and all sufficiently large data sets; a test sees one data set from one distribution, usually one with the structure of the network.", "anchors": ["causalnex/network/network.py: BayesianNetwork.fit_cpds, cpds, predict", "causalnex/inference/inference.py: InferenceEngine.query"]}
{"id": "C156", "title": "Nodes that are not ancestors can be left out of the structure", "statement": "Leave nodes out of a structure together with all their descendants, so that all edges into the nodes kept are kept, and fit the network with the whole structure and the one with the rest to the same complete data (with or without the columns of the nodes left out; states may be listed in another order) with the same method. If fitting the first succeeds, so does fitting the second; the tables of all nodes kept are the same; and with any evidence on the nodes kept, possible or not, both inference engines give the same probabilities to all states of all nodes kept. The data must be complete: a row with an unknown state in a column left out is not counted by the first network and is counted by the second.", "quantifier": "all structures and parts of them closed under parents, states, complete data sets, methods and their settings, sets of evidence and orders in which the engines visit their nodes", "why_tests_cant": "It compares two networks for all structures, data sets and queries; a test compares two answers.", "anchors": ["causalnex/network/network.py: BayesianNetwork.fit_cpds, cpds", "causalnex/inference/inference.py: InferenceEngine.query"]}
{"id": "C157", "title": "With standardize=True units of measurement do not matter", "statement": "For DAGRegressor and DAGClassifier with standardize=True: change the units of the continuous features (any positive factor and any offset for each, such as Fahrenheit for Celsius) and of a continuous target. fit raises the same exception for both data sets or succeeds for both; then the learned graph, with all edges, weights and coefficients, is the same, and for new data in the new units the regressor predicts the same values in the new units and the classifier the same probabilities and labels. What is learned from is the data with every continuous column (and a continuous target) moved and scaled to mean 0 and spread 1; the other columns are not touched. Columns that are constant are not covered (their scale is taken to be one).", "quantifier": "all estimators, optimisers, data sets whose continuous columns are not constant, types, units, and new data", "why_tests_cant": "It compares two fits for all data sets and all units; a test compares two predictions.", "anchors": ["causalnex/structure/pytorch/sklearn/_base.py: DAGBase.fit, DAGBase.predict", "causalnex/structure/pytorch/sklearn/reg.py: DAGRegressor", "causalnex/structure/pytorch/sklearn/clf.py: DAGClassifier"]}
{"id": "C158", "title": "What the prior of the Bayesian estimator does", "statement": "Fit a network with the maximum likelihood estimator, and again with BayesianEstimator (prior K2, or BDeu with a positive equivalent sample size). If the first succeeds, so does the second. Each entry q of its tables is a weighted mean: with n rows that have the states of the parents, a prior worth w rows (K2: one for each state of the node; BDeu: the equivalent sample size divided by the number of combinations of states of the parents) and k states of the node, (n + w) q = n p + w / k, p being the entry with maximum likelihood. So no entry is zero, no entry differs from p by more than w / (n + w), and a larger equivalent sample size moves every entry closer to 1 / k and further from p. Predictions for complete rows do not change at all: with all methods and priors the same states are predicted.", "quantifier": "all structures, states, data sets, priors, equivalent sample sizes, nodes, states and combinations of states of the parents", "why_tests_cant": "It relates several fits for all data sets; a test compares a few entries of a few tables.", "anchors": ["causalnex/network/network.py: BayesianNetwork.fit_cpds, BayesianNetwork.predict"]}
{"id": "C159", "title": "Fitting to two data sets together, and to one more row", "statement": "Fit a network, with the same arguments, to two data sets and to all rows of both. If the first two fits succeed, so does the third. With maximum likelihood each of its table entries is the mean of the two entries, weighted with the numbers of rows that have the states of the parents, and so lies between them; with a prior worth w rows, (n1 + n2 + w) p = (n1 + w) p1 + (n2 + w) p2 - w / k. In a complete row for which both networks predict the same state, the network fitted to both data sets predicts this state, too. One more row changes an entry by at most 1 / (n + w + 1), if n rows had the states of the parents before; it changes nothing if it has other states of the parents or is not complete.", "quantifier": "all structures, states, pairs of data sets, rows, orders of rows, estimators and priors, nodes, states and combinations of states of the parents", "why_tests_cant": "It relates several fits for all data sets; a test compares a few entries of a few tables.", "anchors": ["causalnex/network/network.py: BayesianNetwork.fit_cpds, BayesianNetwork.predict"]}
{"id": "C160", "title": "Small changes of the tables change the answers little", "statement": "A network is fitted twice, to any data and with any methods and priors, and an inference engine is created from each. If the entries of the two sets of tables differ at most by a factor c, then for every evidence, possible or not, all probabilities the two engines report differ at most by the factor c^(2m), m being the number of nodes, and so at most by c^(2m) - 1. If the entries are at least eps and differ at most by delta, the probabilities differ at most by (1 + delta/eps)^(2m) - 1. This also bounds what a prior does to the answers: delta is then the largest share of the prior in a distribution (see C158). The bounds do not depend on the evidence, however improbable it is, nor on the choices made in building the join trees.", "quantifier": "all structures, states, pairs of data sets, estimators, factors, evidence, nodes and states, and all choices made in building join trees", "why_tests_cant": "It bounds the change of all answers for all pairs of tables; a test compares two answers for two tables.", "anchors": ["causalnex/network/network.py: BayesianNetwork.fit_cpds", "causalnex/inference/inference.py: InferenceEngine.query"]}
{"id": "C161", "title": "Units of measurement do not matter to discretisation", "statement": "For a Discretiser with any method and settings: if the data (and split points given by the user) are in other units, with any positive factor and any offset, such as Fahrenheit for Celsius, then fit raises the same exception or succeeds alike, the fitted split points are those before in the new units, and transform, for any new values in the new units, and fit_transform give exactly the same buckets. transform alone gives the same buckets even for every strictly increasing function applied to split points and values. With a negative factor the buckets change, and with increasing functions that are not linear the fitted split points do.", "quantifier": "all methods and settings, data, positive factors, offsets and new values; all strictly increasing functions", "why_tests_cant": "It compares two fits for all data and all units; a test compares two lists of buckets.", "anchors": ["causalnex/discretiser/discretiser.py: Discretiser.fit, Discretiser.transform"]}
{"id": "C162", "title": "What the extreme areas of roc_auc mean", "statement": "For a fitted network, complete non-empty data and a node with at least two states whose labels are ordered like the states (without this condition the areas are wrong, see C33), no parent having the name of a column of probabilities: the area that roc_auc returns is 1 exactly if each probability given to a true state is greater than each probability given to a state that is not true, in whatever rows; it is 0 exactly if each is less; and if all of them are equal it is 1/2.", "quantifier": "all fitted networks, nodes, complete data, arguments and column orders", "why_tests_cant": "It is an equivalence over all tables and data; a test sees the area of one data set.", "anchors": ["causalnex/evaluation/evaluation.py: roc_auc"]}
{"id": "C163", "title": "What the scores of classification_report can be", "statement": "For a fitted network and complete data, with the predicted state of each row being a most likely one: all scores that classification_report gives to a state lie between 0 and 1, and F1 lies between precision and recall. Precision is 1 exactly if the state is predicted in some row and is the true one wherever it is predicted. Recall is 1 exactly if the state is the true one in some row and is predicted wherever it is the true one. Each of precision, recall and F1 is 0 exactly if the state is in no row both predicted and true.", "quantifier": "all fitted networks, nodes, complete data (also without rows), states, column orders and versions of scikit-learn", "why_tests_cant": "These are bounds and equivalences over all tables and data; a test sees the report of one data set.", "anchors": ["causalnex/evaluation/evaluation.py: classification_report"]}
