{
 "claims": [
  {
   "property": "C01",
   "status": "partial",
   "theorems": [
    "Verif.Structure.C01_origin_invariant_partial",
    "Verif.Structure.C01_violation",
    "Verif.Structure.C01_reject",
    "Verif.Structure.C01_last_origin_wins",
    "Verif.Structure.C01_all_histories",
    "Verif.Structure.reachable_wf",
    "Verif.Structure.reachable_origins"
   ],
   "note": "Holds for every history of calls whose edge batches do not smuggle an 'origin' key in their attribute dicts; C01_violation exhibits the call sequence for which the code breaks the claim; C01_all_histories covers all histories: an origin is allowed unless a call passed it inside a per-edge dictionary."
  },
  {
   "property": "C02",
   "status": "proved",
   "theorems": [
    "Verif.Structure.C02_edges_with_origin"
   ],
   "note": ""
  },
  {
   "property": "C03",
   "status": "proved",
   "theorems": [
    "Verif.Structure.C03_threshold_exact",
    "Verif.Structure.C03_threshold_compose"
   ],
   "note": ""
  },
  {
   "property": "C04",
   "status": "proved",
   "theorems": [
    "Verif.Structure.C04_largest_subgraph"
   ],
   "note": ""
  },
  {
   "property": "C05",
   "status": "proved",
   "theorems": [
    "Verif.Structure.C05_target_subgraph"
   ],
   "note": ""
  },
  {
   "property": "C06",
   "status": "proved",
   "theorems": [
    "Verif.Structure.C06_threshold_till_dag"
   ],
   "note": ""
  },
  {
   "property": "C14",
   "status": "proved",
   "theorems": [
    "Verif.BBN.query_marginals"
   ],
   "note": "Exact arithmetic (any linearly ordered field); all set-iteration and tie orders quantified by Nondet.Legal."
  },
  {
   "property": "C15",
   "status": "proved",
   "theorems": [
    "Verif.BBN.query_conditional"
   ],
   "note": "As C14, for every evidence dictionary of positive probability."
  },
  {
   "property": "C16",
   "status": "proved",
   "theorems": [
    "Verif.BBN.query_impossible"
   ],
   "note": "ZeroDivisionError is a value of the model and shown unreachable."
  },
  {
   "property": "C17",
   "status": "proved",
   "theorems": [
    "Verif.BBN.query_raises_iff"
   ],
   "note": ""
  },
  {
   "property": "C18",
   "status": "proved",
   "theorems": [
    "Verif.BBN.join_tree_correct",
    "Verif.BBN.join_tree_only_connected"
   ],
   "note": ""
  },
  {
   "property": "C19",
   "status": "proved",
   "theorems": [
    "Verif.BBN.triangulate_correct"
   ],
   "note": ""
  },
  {
   "property": "C20",
   "status": "proved",
   "theorems": [
    "Verif.BBN.initial_potentials"
   ],
   "note": ""
  },
  {
   "property": "C21",
   "status": "proved",
   "theorems": [
    "Verif.BBN.original_factors"
   ],
   "note": ""
  },
  {
   "property": "C22",
   "status": "proved",
   "theorems": [
    "Verif.BBN.propagate_calibrates",
    "Verif.BBN.propagate_calibrates_applies"
   ],
   "note": ""
  },
  {
   "property": "C23",
   "status": "partial",
   "theorems": [
    "Verif.BBN.do_truncated_partial",
    "Verif.BBN.query_after_do_iff",
    "Verif.BBN.do_own_marginal",
    "Verif.BBN.do_nondescendants",
    "Verif.BBN.do_label_eq_point",
    "Verif.BBN.do_can_break_queries"
   ],
   "note": "Full statement: every accepted intervention is followed by queries answering from the truncated factorisation. Proved exactly when the cut graph stays connected (query_after_do_iff: queries succeed iff it does); do_can_break_queries is a proved counterexample for the disconnected case: in 0->1->2, do(1) is accepted and every later query raises. Own marginal and non-descendant invariance are proved without the restriction."
  },
  {
   "property": "C24",
   "status": "proved",
   "theorems": [
    "Verif.BBN.reset_restores",
    "Verif.BBN.reset_only_one"
   ],
   "note": ""
  },
  {
   "property": "C25",
   "status": "proved",
   "theorems": [
    "Verif.BBN.do_commute",
    "Verif.BBN.do_after_do",
    "Verif.BBN.do_last_wins",
    "Verif.BBN.do_order_matters"
   ],
   "note": "Commutation holds whenever both orders are accepted; do_after_do says when they are. do_order_matters: one order can be rejected (the first intervention may take away the only child)."
  },
  {
   "property": "C26",
   "status": "proved",
   "theorems": [
    "Verif.BBN.do_rejects_iff",
    "Verif.BBN.do_label_rejects_iff"
   ],
   "note": "Also shows that a state label that is no int is always rejected with AttributeError, against the docstring."
  },
  {
   "property": "C27",
   "status": "proved",
   "theorems": [
    "Verif.BBN.query_pure",
    "Verif.BBN.run_filter_queries",
    "Verif.BBN.query_leaves_no_trace"
   ],
   "note": "The model gives query no way to write the engine; that BBN.query builds fresh copies of the nodes (make_undirected_copy, make_moralized_copy) was checked by reading and is part of the trusted base."
  },
  {
   "property": "C28",
   "status": "proved",
   "theorems": [
    "Verif.BBN.draw_samples_correct",
    "Verif.BBN.draw_sample_law",
    "Verif.BBN.draw_impossible_evidence",
    "Verif.BBN.draw_zero_impossible"
   ],
   "note": "draw_sample_law gives the exact law of a sample: the random numbers leading to an assignment form a box whose volume is its conditional probability. draw_zero_impossible: for r = 0 (excluded by the property) a state of probability zero can be drawn. Randomness and the choice of the next variable are parameters."
  },
  {
   "property": "C07",
   "status": "partial",
   "theorems": [
    "Verif.Network.init_accepts_iff",
    "Verif.Network.init_nodes_partial",
    "Verif.Network.init_single_node"
   ],
   "note": "Acceptance is proved in full. Full statement also says that the nodes of the network are those of the structure; init_single_node is a proved counterexample (a single node without edges is accepted and lost), init_nodes_partial covers all other structures."
  },
  {
   "property": "C08",
   "status": "proved",
   "theorems": [
    "Verif.Network.set_node_states_correct",
    "Verif.Network.fit_node_states_correct"
   ],
   "note": "node_states is a dict of sets, as documented (repetition-free lists)."
  },
  {
   "property": "C09",
   "status": "partial",
   "theorems": [
    "Verif.Network.encode_roundtrip_partial",
    "Verif.Network.fit_drops_unknown_rows",
    "Verif.Network.fit_keeps_frames",
    "Verif.Network.Witness.unseen_state_accepted"
   ],
   "note": "Round trip and frame preservation proved. Full statement also says that an unseen state is rejected; it is not: the cell becomes null and the row is left out of the estimation (fit_drops_unknown_rows for all data, unseen_state_accepted concretely)."
  },
  {
   "property": "C10",
   "status": "proved",
   "theorems": [
    "Verif.Network.fit_cpds_correct",
    "Verif.Network.fit_node_states_and_cpds_correct",
    "Verif.Network.estimate_prob",
    "Verif.Network.fit_cpds_prob"
   ],
   "note": "Exact arithmetic. pgmpy's estimators are modelled from their documentation."
  },
  {
   "property": "C11",
   "status": "proved",
   "theorems": [
    "Verif.Network.fit_ok_iff",
    "Verif.Network.fit_errors",
    "Verif.Network.fit_error_atomic",
    "Verif.Network.unfitted_predict",
    "Verif.Network.set_node_states_unfitted"
   ],
   "note": ""
  },
  {
   "property": "C12",
   "status": "partial",
   "theorems": [
    "Verif.Network.predict_argmax",
    "Verif.Network.predict_probability_column_partial",
    "Verif.Network.predict_unknown_state",
    "Verif.Network.predict_keeps_frames",
    "Verif.Network.Witness.predict_probability_collision"
   ],
   "note": "predict is proved in full. For predict_probability the full statement fails if a parent is named like a column of the result ('{node}_{state}'): predict_probability_collision is a proved counterexample; everything else is proved."
  },
  {
   "property": "C13",
   "status": "partial",
   "theorems": [
    "Verif.Network.predict_incomplete_partial",
    "Verif.Network.predict_incomplete_needs_node",
    "Verif.Network.predict_unknown_node",
    "Verif.Network.Witness.predict_incomplete_codes",
    "Verif.Network.predict_probability_incomplete_partial",
    "Verif.Network.Witness.predict_probability_incomplete_codes"
   ],
   "note": "Full statement: predictions are states. It holds only for nodes whose states are 0..k-1 (predict_incomplete_partial, with pgmpy's inference as a parameter); predict_incomplete_codes is a proved counterexample. predict_probability_incomplete_partial: the columns of the node, and only these, are returned, named by codes; predict_probability_incomplete_codes is the counterexample for other states."
  },
  {
   "property": "C70",
   "status": "proved",
   "theorems": [
    "Verif.Network.fitted_is_network",
    "Verif.Network.fit_then_query"
   ],
   "note": "Connects C10 with C14-C28: the hypotheses of the inference theorems hold for every fitted network."
  },
  {
   "property": "C29",
   "status": "proved",
   "theorems": [
    "Verif.Discretiser.transform_correct",
    "Verif.Discretiser.transform_unfitted",
    "Verif.Discretiser.digitize_decreasing"
   ],
   "note": "For every discretiser obtained by the constructor and any calls of fit; numpy's digitize is modelled as a binary search."
  },
  {
   "property": "C30",
   "status": "partial",
   "theorems": [
    "Verif.Discretiser.create_ok_iff_partial",
    "Verif.Discretiser.create_accepts_zero_buckets"
   ],
   "note": "Exact characterisation of the settings accepted. Full statement also says that a bucket count out of range is rejected; it is not (create_accepts_zero_buckets)."
  },
  {
   "property": "C31",
   "status": "proved",
   "theorems": [
    "Verif.Discretiser.fit_correct",
    "Verif.Discretiser.fit_perm",
    "Verif.Discretiser.fit_few_buckets"
   ],
   "note": "fit_few_buckets says what happens without buckets. The exact value of each split point is proved too (uniform spacing, or the interpolated quantile)."
  },
  {
   "property": "C32",
   "status": "proved",
   "theorems": [
    "Verif.Discretiser.fit_transform_correct"
   ],
   "note": "For at least one bucket."
  },
  {
   "property": "C35",
   "status": "proved",
   "theorems": [
    "Verif.Transform.cut_correct",
    "Verif.Transform.transform_correct"
   ],
   "note": "An empty realisation gives one empty piece; otherwise no piece is empty."
  },
  {
   "property": "C36",
   "status": "proved",
   "theorems": [
    "Verif.Transform.transform_correct",
    "Verif.Transform.transform_time",
    "Verif.Transform.lagNames_get",
    "Verif.Transform.transform_zero",
    "Verif.Transform.repeated_time"
   ],
   "note": "transform_correct is the statement about positions within a piece, for all nondecreasing indices; transform_time is the statement about time, for indices without repetition (repeated_time shows that the restriction is needed). p = 0 always raises."
  },
  {
   "property": "C37",
   "status": "proved",
   "theorems": [
    "Verif.Transform.fit_ok_iff",
    "Verif.Transform.transform_correct",
    "Verif.Transform.transform_unfitted",
    "Verif.Transform.checkInput_ok",
    "Verif.Transform.refit_other_columns"
   ],
   "note": "Good is the exact acceptance domain. It includes the check against the columns of an earlier fit, which also applies to refitting (refit_other_columns)."
  },
  {
   "property": "C38",
   "status": "proved",
   "theorems": [
    "Verif.Notears.fromNumpy_permitted",
    "Verif.Notears.fromNumpyLasso_permitted",
    "Verif.Notears.fromPandas_permitted",
    "Verif.Notears.fromPandasLasso_permitted"
   ],
   "note": "For every optimiser that stays within the bounds it was given (scipy's documented behaviour), any objective and any number of steps."
  },
  {
   "property": "C39",
   "status": "proved",
   "theorems": [
    "Verif.Notears.fromNumpy_threshold",
    "Verif.Notears.fromNumpyLasso_threshold"
   ],
   "note": "The weights are those returned by a call of the optimiser for the problem and bounds at hand (or the initial zeros)."
  },
  {
   "property": "C40",
   "status": "proved",
   "theorems": [
    "Verif.Notears.expScore_nonneg",
    "Verif.Notears.expScore_eq_zero_iff"
   ],
   "note": "Real matrices of any size, Mathlib's matrix exponential."
  },
  {
   "property": "C41",
   "status": "proved",
   "theorems": [
    "Verif.Notears.polyScore_nonneg",
    "Verif.Notears.polyScore_eq_zero_iff"
   ],
   "note": ""
  },
  {
   "property": "C43",
   "status": "proved",
   "theorems": [
    "Verif.Notears.fromPandas_ok",
    "Verif.Notears.fromPandasLasso_ok",
    "Verif.Notears.fromPandasWith_ok",
    "Verif.Pytorch.fromPandas_total"
   ],
   "note": "Also gives the exact errors for non-numeric columns and unknown tabu names. For repeated column names the function may raise KeyError (shown in Witness)."
  },
  {
   "property": "C44",
   "status": "proved",
   "theorems": [
    "Verif.Notears.lasso_representation",
    "Verif.Notears.lasso_penalty",
    "Verif.Notears.fromNumpyLasso_permitted"
   ],
   "note": "lasso_representation also shows that the penalty of the best split is the sum of the absolute weights; lasso_penalty that no split is below."
  },
  {
   "property": "C45",
   "status": "proved",
   "theorems": [
    "Verif.Dynotears.fromNumpyDynamic_permitted",
    "Verif.Dynotears.fromArrays_permitted",
    "Verif.Dynotears.bounds_get"
   ],
   "note": "For every optimiser within the bounds it was given, any objective, any number of steps. fromArrays is from_pandas_dynamic after its transformer; fromPandasDynamic_data (C46) connects the two."
  },
  {
   "property": "C46",
   "status": "proved",
   "theorems": [
    "Verif.Dynotears.fromNumpyDynamic_graph",
    "Verif.Dynotears.fromArrays_correct",
    "Verif.Dynotears.fromPandasDynamic_data",
    "Verif.Dynotears.fromPandasDynamic_zero"
   ],
   "note": "For distinct column names; also gives the exact errors for unknown tabu names."
  },
  {
   "property": "C47",
   "status": "proved",
   "theorems": [
    "Verif.Dynotears.dyn_acyclic_iff",
    "Verif.Dynotears.dyn_acyclic_weights"
   ],
   "note": ""
  },
  {
   "property": "C48",
   "status": "proved",
   "theorems": [
    "Verif.Dynotears.formatName_lagName",
    "Verif.Dynotears.lagName_inj",
    "Verif.Dynotears.split_lagName"
   ],
   "note": "Variables may contain the separator themselves: the nodes that are parsed are numbered, not named, so the round trip holds for all column names."
  },
  {
   "property": "C49",
   "status": "proved",
   "theorems": [
    "Verif.Dynotears.fromNumpyDynamic_total"
   ],
   "note": "With finite scores (else the loop need not end, see C42). Without any column the exception is ZeroDivisionError."
  },
  {
   "property": "C71",
   "status": "proved",
   "theorems": [
    "Verif.Notears.problem_gradient",
    "Verif.Notears.problemLasso_gradient",
    "Verif.Dynotears.problem_gradient"
   ],
   "note": "Over the reals, with Mathlib's matrix exponential. For from_numpy_dynamic, for all shapes that are accepted."
  },
  {
   "property": "C72",
   "status": "proved",
   "theorems": [
    "Verif.Notears.notears_acyclic",
    "Verif.Notears.notearsLasso_acyclic",
    "Verif.Notears.notears_warns_iff",
    "Verif.Notears.notearsLasso_warns_iff",
    "Verif.Notears.Witness.notears_cyclic",
    "Verif.Dynotears.dynotears_warns_iff",
    "Verif.Dynotears.dynotears_acyclic",
    "Verif.Dynotears.Witness.dynotears_cyclic"
   ],
   "note": "For max_iter > 0. notears_cyclic, dynotears_cyclic: without the condition on the threshold a graph learned without a warning can have a cycle."
  },
  {
   "property": "C50",
   "status": "proved",
   "theorems": [
    "Verif.Mapper.indices_partition",
    "Verif.Mapper.distinct_strings",
    "Verif.Mapper.getIndicesList_correct",
    "Verif.Mapper.isVarOfType_correct",
    "Verif.Mapper.Witness.clash_shares_index"
   ],
   "note": "For every schema with documented types and no clash of feature names; distinct_strings gives a simple condition for this. With a clash the indices are no partition (clash_shares_index)."
  },
  {
   "property": "C51",
   "status": "proved",
   "theorems": [
    "Verif.Mapper.features_roundtrip",
    "Verif.Mapper.unsigned_spec"
   ],
   "note": "For every schema with documented types and no clash of feature names."
  },
  {
   "property": "C52",
   "status": "partial",
   "theorems": [
    "Verif.Mapper.validateSchema_correct_partial",
    "Verif.Mapper.validateSchema_documented",
    "Verif.Mapper.Witness.validated_not_expandable",
    "Verif.Mapper.Witness.unknown_type_accepted"
   ],
   "note": "The validation is characterised exactly for all strings, and documented types can be expanded. False as stated: the code accepts some strings that cannot be expanded (validated_not_expandable) and unknown types that contain a known one (unknown_type_accepted)."
  },
  {
   "property": "C33",
   "status": "partial",
   "theorems": [
    "Verif.Evaluation.groundTruth_correct",
    "Verif.Evaluation.renamed_aligned_iff",
    "Verif.Evaluation.labels_increasing",
    "Verif.Evaluation.rocAuc_correct_partial",
    "Verif.Evaluation.Witness.numbers_area",
    "Verif.Evaluation.Witness.weather_area",
    "Verif.Evaluation.Witness.clash_area"
   ],
   "note": "The ground truth is right for all data. The alignment is false in general (numbers_area, weather_area); renamed_aligned_iff characterises exactly when it holds, and rocAuc_correct_partial is the property under that condition."
  },
  {
   "property": "C34",
   "status": "proved",
   "theorems": [
    "Verif.Evaluation.rocCurve_correct",
    "Verif.Evaluation.auc_nan",
    "Verif.Evaluation.auc_reverse",
    "Verif.Evaluation.rocAuc_range",
    "Verif.Evaluation.rocAuc_correct_partial",
    "Verif.Evaluation.Witness.good_area"
   ],
   "note": "scikit-learn's roc_curve and auc are modelled from their documentation. auc_nan: with only one outcome the area is not a number."
  },
  {
   "property": "C73",
   "status": "proved",
   "theorems": [
    "Verif.Evaluation.classificationReport_correct"
   ],
   "note": "scikit-learn's report is modelled from its documentation. The averages: C121."
  },
  {
   "property": "C74",
   "status": "proved",
   "theorems": [
    "Verif.Evaluation.rocCurve_correct",
    "Verif.Evaluation.rocAuc_correct_partial",
    "Verif.Evaluation.area_counts",
    "Verif.Evaluation.trapz_drop"
   ],
   "note": "The suffix of rocAuc_correct_partial refers to C33: alignment of the columns is a hypothesis there, as in this property."
  },
  {
   "property": "C53",
   "status": "proved",
   "theorems": [
    "Verif.Generators.generateStructure_dag",
    "Verif.Generators.generateStructure_total",
    "Verif.Generators.generateStructure_full",
    "Verif.Generators.generateStructure_erdos",
    "Verif.Generators.generateStructure_erdos_extreme",
    "Verif.Generators.generateStructure_barabasi"
   ],
   "note": "Every outcome of the random generator (permutation, uniform numbers, signs). Also: the exact errors, and what each graph type draws."
  },
  {
   "property": "C54",
   "status": "proved",
   "theorems": [
    "Verif.Generators.generateDynamic_dag",
    "Verif.Generators.generateDynamic_intra",
    "Verif.Generators.generateDynamic_inter",
    "Verif.Generators.generateDynamic_total"
   ],
   "note": ""
  },
  {
   "property": "C57",
   "status": "proved",
   "theorems": [
    "Verif.Generators.samplePoisson_correct",
    "Verif.Generators.poisson_unique"
   ],
   "note": "Exact real arithmetic; the logarithm of 0 is minus infinity."
  },
  {
   "property": "C59",
   "status": "partial",
   "theorems": [
    "Verif.Generators.generateDataframe_lags_partial",
    "Verif.Generators.generateDataframe_positions",
    "Verif.Generators.generateDataframe_lags_false",
    "Verif.Generators.generateDataframe_mislabelled"
   ],
   "note": "False in general (generateDataframe_lags_false): for p >= 2 and at least two variables, columns are named in sorted order but laid out lag by lag. Proved for p = 1, and for a single variable and p <= 9; generateDataframe_positions is the statement by position for all p."
  },
  {
   "property": "C75",
   "status": "proved",
   "theorems": [
    "Verif.Generators.generateDataframe_equation",
    "Verif.Generators.generateDataframe_ok",
    "Verif.Generators.generateDataframe_total"
   ],
   "note": ""
  },
  {
   "property": "C55",
   "status": "proved",
   "theorems": [
    "Verif.Generators.semGenerator_inType",
    "Verif.Generators.nonlinearSemGenerator_inType"
   ],
   "note": "For every outcome of the random draws."
  },
  {
   "property": "C56",
   "status": "proved",
   "theorems": [
    "Verif.Generators.semGenerator_correct",
    "Verif.Generators.semGenerator_error",
    "Verif.Generators.nonlinearSemGenerator_correct",
    "Verif.Generators.nonlinearSemGenerator_error",
    "Verif.Generators.nonlinearSemGenerator_function"
   ],
   "note": "For documented schemas without a clash of feature names. Also: exactly which inputs raise ValueError."
  },
  {
   "property": "C58",
   "status": "proved",
   "theorems": [
    "Verif.Generators.gpIndex_rows",
    "Verif.Generators.gpIndex_function",
    "Verif.Generators.gpIndex_root",
    "Verif.Generators.scaleY_std"
   ],
   "note": "np.argsort is modelled by its documentation (any sorting permutation)."
  },
  {
   "property": "C76",
   "status": "proved",
   "theorems": [
    "Verif.Generators.binaryLabels_balanced",
    "Verif.Generators.semGenerator_correct",
    "Verif.Generators.nonlinearSemGenerator_correct",
    "Verif.Generators.SemWitness.binaryLabels_all_positive"
   ],
   "note": "Part of Realises in the statements for the generators. binaryLabels_all_positive: the correction turns a variable that is always positive into one that is mostly 0."
  },
  {
   "property": "C77",
   "status": "proved",
   "theorems": [
    "Verif.Generators.semGenerator_deterministic",
    "Verif.Generators.nonlinearSemGenerator_deterministic"
   ],
   "note": ""
  },
  {
   "property": "C64",
   "status": "proved",
   "theorems": [
    "Verif.Pytorch.ordinal_fitted",
    "Verif.Pytorch.ordinal_distribution",
    "Verif.Pytorch.ordinal_monotone",
    "Verif.Pytorch.logCumOdds_ordered",
    "Verif.Pytorch.categorical_distribution",
    "Verif.Pytorch.scalar_links",
    "Verif.Pytorch.reconstruct_columns",
    "Verif.Pytorch.reconstruct_ordinal_last",
    "Verif.Pytorch.ordinal_not_last"
   ],
   "note": "Exact real arithmetic. An ordinal type that is not last in the schema makes the later types act on the wrong matrix (ordinal_not_last)."
  },
  {
   "property": "C60",
   "status": "proved",
   "theorems": [
    "Verif.Pytorch.tabu_expanded"
   ],
   "note": "Pairs of different columns; the diagonal is bounded to zero in any case."
  },
  {
   "property": "C63",
   "status": "proved",
   "theorems": [
    "Verif.Pytorch.prepare_layout",
    "Verif.Pytorch.prepare_total",
    "Verif.Pytorch.transform_layout",
    "Verif.Pytorch.names_layout"
   ],
   "note": "Also: exactly which inputs raise, and the same for new data (prediction)."
  },
  {
   "property": "C42",
   "status": "proved",
   "theorems": [
    "Verif.Notears.fromNumpy_total",
    "Verif.Notears.fromNumpyLasso_total",
    "Verif.Notears.fromNumpy_no_iterations",
    "Verif.Notears.learnLoop_terminates",
    "Verif.Notears.learnLoop_score",
    "Verif.Notears.Witness.from_numpy_diverges",
    "Verif.Pytorch.fit_terminates",
    "Verif.Pytorch.fit_result",
    "Verif.Pytorch.fit_diverges",
    "Verif.Pytorch.fit_no_warning",
    "Verif.Pytorch.fromNumpy_outcome",
    "Verif.Pytorch.fromNumpy_total",
    "Verif.Pytorch.fromNumpy_no_iterations",
    "Verif.Pytorch.fromNumpy_warned"
   ],
   "note": "At most max_iter + 20 calls of the optimiser for the numpy versions, max_iter + 16 for pytorch. Infinite scores are excluded by the property; with them the loop need not end (from_numpy_diverges, fit_diverges)."
  },
  {
   "property": "C61",
   "status": "proved",
   "theorems": [
    "Verif.Pytorch.adjacency_excluded",
    "Verif.Pytorch.bounds_only_excluded",
    "Verif.Pytorch.permitted_expanded",
    "Verif.Pytorch.fromNumpy_edges",
    "Verif.Pytorch.fromNumpy_collapsed_permitted",
    "Verif.Pytorch.fromPandas_permitted",
    "Verif.Pytorch.fromNumpy_example",
    "Verif.Pytorch.fromPandas_example"
   ],
   "note": "From the weight vector up to the edges by name; the optimiser is any function that respects its bounds."
  },
  {
   "property": "C62",
   "status": "proved",
   "theorems": [
    "Verif.Pytorch.collapse_blocks",
    "Verif.Pytorch.hFunc_zero_iff",
    "Verif.Pytorch.fromNumpy_collapsed",
    "Verif.Pytorch.fromNumpy_acyclic"
   ],
   "note": "The collapsed graph is computed from the weights before the threshold is applied, so with a threshold it can have edges without an expanded edge; without one the correspondence is exact."
  },
  {
   "property": "C78",
   "status": "proved",
   "theorems": [
    "Verif.Pytorch.fromNumpy_threshold",
    "Verif.Pytorch.fromNumpy_acyclic",
    "Verif.Pytorch.hFunc_no_cycle",
    "Verif.Pytorch.fit_no_warning"
   ],
   "note": "fit_no_warning: when the penalty reaches its limit no warning is given although the score may be above the tolerance."
  },
  {
   "property": "C79",
   "status": "proved",
   "theorems": [
    "Verif.Pytorch.loss_likelihood",
    "Verif.Pytorch.binary_unbounded"
   ],
   "note": "Binary data have to be 0 and 1 and counts whole numbers, which is not checked by the code (binary_unbounded)."
  },
  {
   "property": "C80",
   "status": "proved",
   "theorems": [
    "Verif.Pytorch.fromNumpy_linear",
    "Verif.Pytorch.fromNumpy_bias",
    "Verif.Pytorch.fromNumpy_outcome"
   ],
   "note": "fromNumpy_bias: with hidden layers the attribute bias of a node belongs to other units."
  },
  {
   "property": "C65",
   "status": "proved",
   "theorems": [
    "Verif.Sklearn.fit_no_children",
    "Verif.Sklearn.fits_keep",
    "Verif.Sklearn.regFit_history",
    "Verif.Sklearn.new_regressor",
    "Verif.Sklearn.new_classifier",
    "Verif.Sklearn.reg_target_type",
    "Verif.Sklearn.clf_target_type"
   ],
   "note": "The caller's objects are positions in a heap; fits_keep: none of them changes in any history of fits. regFit_history: the result of a fit does not depend on earlier fits."
  },
  {
   "property": "C66",
   "status": "partial",
   "theorems": [
    "Verif.Sklearn.clf_predictions_partial",
    "Verif.Sklearn.clf_refit_binary",
    "Verif.Sklearn.clf_example",
    "Verif.Sklearn.clf_refit_example"
   ],
   "note": "Missing: ordinal features, for which the code reads the wrong columns (ordinal_not_last), and a binary type that is kept from an earlier fit when there are now more than two classes, for which the property is false (clf_refit_binary)."
  },
  {
   "property": "C67",
   "status": "proved",
   "theorems": [
    "Verif.Sklearn.edgesToNode_aligned",
    "Verif.Sklearn.fit_importances",
    "Verif.Sklearn.fit_class_rows",
    "Verif.Sklearn.class_rows_aligned",
    "Verif.Sklearn.fit_class_intercepts"
   ],
   "note": "For features of any type; further columns of categorical features are appended after the features (edgesToNode_aligned). With categorical features and more than two classes reading the rows can raise (class_rows_aligned)."
  },
  {
   "property": "C81",
   "status": "proved",
   "theorems": [
    "Verif.Sklearn.fit_enforce_dag"
   ],
   "note": ""
  },
  {
   "property": "C82",
   "status": "proved",
   "theorems": [
    "Verif.Sklearn.fits_linear",
    "Verif.Sklearn.truncate_spec",
    "Verif.Sklearn.reg_example"
   ],
   "note": ""
  },
  {
   "property": "C68",
   "status": "partial",
   "theorems": [
    "Verif.Plots.gradient_exact",
    "Verif.Plots.gradient_double_exact",
    "Verif.Plots.gradient_double_partial",
    "Verif.Plots.gradient_off",
    "Verif.Plots.gradient_rgb",
    "Verif.Plots.gradient_errors",
    "Verif.Plots.parseColor_ok",
    "Verif.Plots.gradient_example"
   ],
   "note": "Proved for exact arithmetic (gradient_exact) and, with Python's double precision, for powers of two (gradient_double_exact). False in general with double precision: the last colour can be one unit below the requested one (gradient_off); gradient_double_partial proves everything up to one unit. Colours without transparency become fully transparent (gradient_rgb)."
  },
  {
   "property": "C69",
   "status": "proved",
   "theorems": [
    "Verif.Plots.addAttributes_correct",
    "Verif.Plots.plotStructure_correct",
    "Verif.Plots.plotMany_keep",
    "Verif.Plots.plot_example"
   ],
   "note": ""
  },
  {
   "property": "C83",
   "status": "proved",
   "theorems": [
    "Verif.Generators.continuousData_correct",
    "Verif.Generators.binaryData_correct",
    "Verif.Generators.continuousFrame_correct",
    "Verif.Generators.binaryFrame_correct",
    "Verif.Generators.countFrame_correct",
    "Verif.Generators.categoricalFrame_correct",
    "Verif.Generators.intStr_value",
    "Verif.Generators.strFmt_distinct",
    "Verif.Generators.continuousData_linear",
    "Verif.Generators.continuousData_kernel",
    "Verif.Generators.WrappersWitness.wrappers_example"
   ],
   "note": "For categorical data the generated names of columns must differ, which always holds for names that are strings (strFmt_distinct)."
  },
  {
   "property": "C84",
   "status": "partial",
   "theorems": [
    "Verif.Generators.wrappers_errors_partial",
    "Verif.Generators.continuous_accepts_logit",
    "Verif.Generators.empty_accepts"
   ],
   "note": "Missing, and false: distributions documented only for another type are accepted (continuous_accepts_logit), and for a graph without nodes the settings are not looked at (empty_accepts). That valid settings are accepted is part of C83."
  },
  {
   "property": "C85",
   "status": "proved",
   "theorems": [
    "Verif.BBN.query_rounded",
    "Verif.BBN.query_rounded_error",
    "Verif.BBN.query_rounded_observed",
    "Verif.BBN.query_double",
    "Verif.BBN.table_bound"
   ],
   "note": "Overflow, underflow and nan are not modelled: rounding has a bounded relative error for all numbers."
  },
  {
   "property": "C86",
   "status": "proved",
   "theorems": [
    "Verif.Notears.notears_best",
    "Verif.Notears.notears_minimum",
    "Verif.Notears.notears_converges",
    "Verif.Notears.notearsLasso_best",
    "Verif.Notears.notearsLasso_minimum",
    "Verif.Notears.notearsLasso_converges",
    "Verif.Dynotears.dynotears_best",
    "Verif.Dynotears.dynotears_minimum",
    "Verif.Dynotears.dynotears_converges",
    "Verif.Pytorch.fromNumpy_best",
    "Verif.Pytorch.fromNumpy_minimum",
    "Verif.Pytorch.fromNumpy_converges",
    "Verif.Notears.Witness.better_notWorse",
    "Verif.Notears.Witness.jump_minima"
   ],
   "note": "Weights before thresholding; with threshold 0 these are the weights of the graph (notears_minimum, notearsLasso_minimum). Exact arithmetic. better_notWorse: for every point within the bounds there is an optimiser that does not miss it."
  },
  {
   "property": "C87",
   "status": "proved",
   "theorems": [
    "Verif.Notears.notears_stationary",
    "Verif.Notears.notearsLasso_stationary",
    "Verif.Dynotears.dynotears_stationary",
    "Verif.Notears.learnLoop_stationary",
    "Verif.Notears.Witness.stationary_of_minima",
    "Verif.Notears.Witness.jump_stationary",
    "Verif.Pytorch.fromNumpy_stationary",
    "Verif.Pytorch.descent_multiplier",
    "Verif.Pytorch.primal_smooth",
    "Verif.Pytorch.torch_gradient",
    "Verif.Pytorch.Witness.noDescent_of_minima",
    "Verif.Pytorch.Witness.jump2_minima"
   ],
   "note": "Weights before thresholding. For the PyTorch version the optimiser is assumed to end where no free parameter can be changed to decrease the objective to first order (one-sided derivatives), and nonlinear_clamp is positive. Exact arithmetic. stationary_of_minima: an optimiser that finds minima finds stationary points."
  },
  {
   "property": "C88",
   "status": "proved",
   "theorems": [
    "Verif.Pytorch.fromNumpy_effects",
    "Verif.Pytorch.adjacency_spec",
    "Verif.Pytorch.partialDeriv_spec",
    "Verif.Pytorch.forward_smooth"
   ],
   "note": "Data after preprocessing; torch.autograd.grad is modelled as the derivative."
  },
  {
   "property": "C89",
   "status": "proved",
   "theorems": [
    "Verif.BBN.engines_share_nothing",
    "Verif.BBN.other_calls_keep_answers",
    "Verif.BBN.other_calls_keep_data",
    "Verif.BBN.other_calls_keep_nets",
    "Verif.BBN.query_leaves_no_trace",
    "Verif.BBN.engine_answers_from_own_history",
    "Verif.BBN.exCalls_ok"
   ],
   "note": "Dictionaries, tables and domains are objects on a heap; join trees and tables within one query are values. Callers do not reach into private attributes of the engine."
  },
  {
   "property": "C90",
   "status": "proved",
   "theorems": [
    "Verif.Structure.C90_construct",
    "Verif.Structure.C90_construct_kinds",
    "Verif.Structure.C90_construct_array",
    "Verif.Structure.C90_remove_subgraph",
    "Verif.Structure.C90_remove_edge",
    "Verif.Structure.C90_copy_reverse",
    "Verif.Structure.C90_construct_resets",
    "Verif.Structure.reachable_wf"
   ],
   "note": "Data frames and sparse matrices as data are not modelled. reachable_wf shows that the hypotheses of C90_copy_reverse hold on every graph built through the API."
  },
  {
   "property": "C91",
   "status": "proved",
   "theorems": [
    "Verif.Generators.genStationary_result",
    "Verif.Generators.genStationary_attempts",
    "Verif.Generators.genStationary_single",
    "Verif.Generators.genStationary_error",
    "Verif.Generators.genStationary_total",
    "Verif.Generators.genStationary_diverges",
    "Verif.Generators.Witness.two_trials",
    "Verif.Generators.Witness.one_trial"
   ],
   "note": "Overflow and missing values are outcomes chosen per attempt; otherwise exact arithmetic. one_trial: a successful last attempt is thrown away."
  },
  {
   "property": "C92",
   "status": "proved",
   "theorems": [
    "Verif.BBN.do_double_iff",
    "Verif.BBN.do_double_two",
    "Verif.BBN.do_double_sum",
    "Verif.BBN.do_double_grid",
    "Verif.BBN.do_double_label",
    "Verif.BBN.query_double_engine",
    "Verif.BBN.do_double_truncated",
    "Verif.BBN.do_double_order",
    "Verif.BBN.do_double_uniform"
   ],
   "note": "sum() adds from left to right with rounding, as up to Python 3.11 (the package requires 3.6 to 3.8). Without overflow, underflow and nan."
  },
  {
   "property": "C93",
   "status": "partial",
   "theorems": [
    "Verif.Network.predict_probability_incomplete_partial",
    "Verif.Network.predict_probability_incomplete_columns",
    "Verif.Network.namePattern_iff",
    "Verif.Network.parentheses_read_other",
    "Verif.Network.Witness.predict_probability_dot",
    "Verif.Network.Witness.predict_probability_parenthesis"
   ],
   "note": "Holds for names without special characters (predict_probability_incomplete_partial). predict_probability_incomplete_columns says exactly which columns are returned for names with dots and parentheses; predict_probability_dot (columns of another node too) and predict_probability_parenthesis (no column) are proved counterexamples. The other special characters of regular expressions are not modelled."
  },
  {
   "property": "C94",
   "status": "proved",
   "theorems": [
    "Verif.BBN.draw_samples_double",
    "Verif.BBN.draw_samples_index_error",
    "Verif.BBN.draw_sample_double_law",
    "Verif.BBN.totalMass_near",
    "Verif.BBN.safeBound_near",
    "Verif.BBN.draw_samples_zero"
   ],
   "note": "safeBound and boundError are explicit; safeBound_near and totalMass_near bound them by what rows of the tables differ from one. Random numbers equal to 0, which random.random() can return, are excluded, as in C28: draw_samples_zero."
  },
  {
   "property": "C95",
   "status": "proved",
   "theorems": [
    "Verif.Network.fit_node_states_correct",
    "Verif.Network.fit_node_states_and_cpds_correct",
    "Verif.Network.Witness.fit_both_k2",
    "Verif.Network.Witness.failed_fit_relabels"
   ],
   "note": "Exact arithmetic. failed_fit_relabels: after an exception for an unknown method the old tables carry the labels of the new states."
  },
  {
   "property": "C96",
   "status": "partial",
   "theorems": [
    "Verif.Sklearn.failed_fit",
    "Verif.Sklearn.failed_fit_plain_partial",
    "Verif.Sklearn.failed_fit_predict",
    "Verif.Sklearn.failed_clf_fit",
    "Verif.Sklearn.failed_fit_changes"
   ],
   "note": "The code violates the full statement. failed_fit_plain_partial: without standardize, for the same names of columns, nothing changes. failed_fit: what changes otherwise. failed_fit_predict, failed_fit_changes (concrete): the old network with the means of the new data. failed_clf_fit: the classes are those of the failed call."
  },
  {
   "property": "C97",
   "status": "proved",
   "theorems": [
    "Verif.BBN.GoodConds.build",
    "Verif.BBN.conditionals_query_exact",
    "Verif.BBN.conditionals_query_impossible",
    "Verif.BBN.conditionals_query_raises_iff",
    "Verif.BBN.conditionals_total",
    "Verif.BBN.conditionals_unbound_iff",
    "Verif.BBN.exConds_good",
    "Verif.BBN.exConds_mass"
   ],
   "note": "Exact arithmetic."
  },
  {
   "property": "C98",
   "status": "partial",
   "theorems": [
    "Verif.BBN.create_names",
    "Verif.BBN.matchName_iff",
    "Verif.BBN.query_named_partial",
    "Verif.BBN.query_self_raises",
    "Verif.BBN.selfNet_useless",
    "Verif.BBN.matchName_examples"
   ],
   "note": "The code violates the full statement: a node called self is accepted, but then every query raises (query_self_raises, concrete case selfNet_useless); a name with a newline at its end is accepted. query_named_partial: all other names have no effect."
  },
  {
   "property": "C99",
   "status": "proved",
   "theorems": [
    "Verif.BBN.query_dsep",
    "Verif.BBN.massOf_dsep"
   ],
   "note": "Exact arithmetic. Examples beside the theorem: a chain with its middle observed; a network after an intervention, with and without evidence on a common child."
  },
  {
   "property": "C100",
   "status": "proved",
   "theorems": [
    "Verif.BBN.do_like_observing",
    "Verif.BBN.do_root",
    "Verif.BBN.do_backdoor",
    "Verif.BBN.do_adjust_parents",
    "Verif.BBN.massOf_act_observe"
   ],
   "note": "Exact arithmetic. Examples beside the theorems, with the probabilities 61/82 when observing and 19/40 when acting, for a confounded pair."
  },
  {
   "property": "C101",
   "status": "proved",
   "theorems": [
    "Verif.BBN.do_mixture"
   ],
   "note": "Exact arithmetic."
  },
  {
   "property": "C102",
   "status": "proved",
   "theorems": [
    "Verif.BBN.do_no_effect",
    "Verif.BBN.reset_no_effect",
    "Verif.BBN.no_effect_cases"
   ],
   "note": "Exact arithmetic. Examples beside the theorems: a chain with its middle observed; evidence on a descendant matters (111/181 before, 9/16 after)."
  },
  {
   "property": "C103",
   "status": "proved",
   "theorems": [
    "Verif.BBN.conditionals_build_returns_iff",
    "Verif.BBN.conditionals_index_iff",
    "Verif.BBN.search_ends_iff",
    "Verif.BBN.originalLoop_iff"
   ],
   "note": "Example beside the theorems: a dict with a misspelt parent."
  },
  {
   "property": "C104",
   "status": "proved",
   "theorems": [
    "Verif.Network.fit_maximises_likelihood",
    "Verif.Network.frequencies_best"
   ],
   "note": "Exact arithmetic; the formula of the estimator (pgmpy) is modelled. Example beside the theorem: 4/27 for the fitted tables, 1/64 for equal probabilities."
  },
  {
   "property": "C105",
   "status": "proved",
   "theorems": [
    "Verif.BBN.query_local",
    "Verif.Network.entry_is_query",
    "Verif.Network.predict_probability_is_query",
    "Verif.Network.predict_is_query_argmax",
    "Verif.Network.seen_possible",
    "Verif.Network.smoothed_possible"
   ],
   "note": "Exact arithmetic. As in C12, no parent may have the name of a column predict_probability adds. Example beside the theorems."
  },
  {
   "property": "C106",
   "status": "proved",
   "theorems": [
    "Verif.Network.predict_most_frequent",
    "Verif.Network.estimate_le_iff"
   ],
   "note": "Exact arithmetic; for the BDeu prior the equivalent sample size is positive. Example beside the theorem."
  },
  {
   "property": "C107",
   "status": "proved",
   "theorems": [
    "Verif.Network.fit_depends_on_counts",
    "Verif.Network.fit_depends_on_frequencies"
   ],
   "note": "Exact arithmetic; networks with at least one edge. Examples beside the theorems."
  },
  {
   "property": "C108",
   "status": "proved",
   "theorems": [
    "Verif.BBN.chain_rule",
    "Verif.BBN.chain_exists",
    "Verif.BBN.chain_order",
    "Verif.BBN.query_total"
   ],
   "note": "Exact arithmetic. Examples beside the theorems."
  },
  {
   "property": "C109",
   "status": "proved",
   "theorems": [
    "Verif.Notears.fromPandas_order",
    "Verif.Notears.fromPandasLasso_order",
    "Verif.Notears.descend_orderBlind"
   ],
   "note": "Exact arithmetic; the optimiser is a parameter that must treat all coordinates alike (example: clipped gradient steps). In floating point sums depend on the order of their terms, so the statement is about the algorithm, not about rounding."
  },
  {
   "property": "C110",
   "status": "proved",
   "theorems": [
    "Verif.Notears.notears_products",
    "Verif.Notears.notearsLasso_products",
    "Verif.Notears.notears_repeated"
   ],
   "note": "Exact arithmetic, any optimiser. Example beside the theorems."
  },
  {
   "property": "C111",
   "status": "proved",
   "theorems": [
    "Verif.Network.fit_cpds_double",
    "Verif.Network.predict_double"
   ],
   "note": "Double precision without overflow and subnormal numbers; the formula of the estimator (pgmpy) is modelled. Examples for all three methods: Network/WitnessFloat."
  },
  {
   "property": "C112",
   "status": "proved",
   "theorems": [
    "Verif.Network.fit_then_query_double",
    "Verif.Network.fit_then_query_double_size",
    "Verif.Network.fit_then_query_double_polytree",
    "Verif.Network.WitnessFloat.query_near"
   ],
   "note": "Double precision without overflow and subnormal numbers. WitnessFloat.query_near: error below 10^-12 for a concrete network, whatever the method and evidence."
  },
  {
   "property": "C113",
   "status": "proved",
   "theorems": [
    "Verif.BBN.triangulate_min_fill",
    "Verif.BBN.triangulate_chordal",
    "Verif.BBN.triangulate_fill_free",
    "Verif.BBN.polytree_fill_free",
    "Verif.BBN.polytree_cliques",
    "Verif.BBN.polytree_tables"
   ],
   "note": "Examples beside the theorems: a square, a path, a network with four nodes."
  },
  {
   "property": "C114",
   "status": "proved",
   "theorems": [
    "Verif.Dynotears.dynotears_products",
    "Verif.Dynotears.frames_same_rows",
    "Verif.Dynotears.frames_order",
    "Verif.Dynotears.frames_repeated",
    "Verif.Dynotears.frames_shifted",
    "Verif.Dynotears.frames_split"
   ],
   "note": "Exact arithmetic; the optimiser (scipy) is arbitrary. Examples: Dynotears/WitnessMoments."
  },
  {
   "property": "C115",
   "status": "proved",
   "theorems": [
    "Verif.Dynotears.frames_columns",
    "Verif.Dynotears.series_learned"
   ],
   "note": "Exact arithmetic; the optimiser is assumed to treat coordinates alike. The converse (failure before implies failure after) is the same statement for the inverse reordering. Example: Dynotears/WitnessMoments."
  },
  {
   "property": "C116",
   "status": "proved",
   "theorems": [
    "Verif.Pytorch.fromNumpy_frequencies",
    "Verif.Pytorch.fromNumpy_rows",
    "Verif.Pytorch.fromNumpy_repeated",
    "Verif.Pytorch.fromPandas_frequencies"
   ],
   "note": "Exact arithmetic; optimiser and initial weights are parameters. Example: Pytorch/WitnessRows."
  },
  {
   "property": "C117",
   "status": "proved",
   "theorems": [
    "Verif.Sklearn.reg_frequencies",
    "Verif.Sklearn.clf_frequencies"
   ],
   "note": "Exact arithmetic; the optimiser is a parameter, and the standard deviation is any function of relative frequencies. Example: Sklearn/WitnessRows."
  },
  {
   "property": "C118",
   "status": "proved",
   "theorems": [
    "Verif.Discretiser.fit_transform_uniform_double",
    "Verif.Discretiser.uniform_double_least_moved",
    "Verif.Discretiser.fit_quantiles_double"
   ],
   "note": "Double precision without overflow and subnormal numbers; what numpy's quantile returns is a parameter. uniform_double_least_moved: the least value in bucket 2 of 4. Examples beside the theorems."
  },
  {
   "property": "C119",
   "status": "proved",
   "theorems": [
    "Verif.Sklearn.plotDag_correct",
    "Verif.Sklearn.plotDag_unfitted"
   ],
   "note": "The result is what is handed to the drawing functions. Example beside the theorems."
  },
  {
   "property": "C120",
   "status": "proved",
   "theorems": [
    "Verif.Evaluation.rocAuc_frequencies",
    "Verif.Evaluation.classificationReport_frequencies",
    "Verif.Evaluation.SameFrequencies.of_copies"
   ],
   "note": "No condition on the alignment of the columns (C33) is needed. In exact arithmetic; scikit-learn is modelled from its documentation. Examples in Evaluation/Witness."
  },
  {
   "property": "C121",
   "status": "proved",
   "theorems": [
    "Verif.Evaluation.classificationReport_averages",
    "Verif.Evaluation.Witness.test_report"
   ],
   "note": ""
  },
  {
   "property": "C122",
   "status": "proved",
   "theorems": [
    "Verif.Generators.semGenerator_law",
    "Verif.Generators.nonlinearSemGenerator_law",
    "Verif.Generators.LawLogit.logit_not_softmax",
    "Verif.Generators.LawWitness.exists_draws"
   ],
   "note": "Tables with continuous or binary variables have no such product formula (densities; the threshold of a binary variable depends on all rows) and are not covered."
  },
  {
   "property": "C123",
   "status": "proved",
   "theorems": [
    "Verif.Network.structure_to_network",
    "Verif.Network.network_to_answers",
    "Verif.Network.structure_to_answers",
    "Verif.Network.PipelineWitness.other_order_rejected"
   ],
   "note": "Exact arithmetic (double precision: C85, C111, C112). other_order_rejected is the counterexample for the other order of the two structure methods."
  },
  {
   "property": "C124",
   "status": "proved",
   "theorems": [
    "Verif.Generators.erdos_law",
    "Verif.Generators.erdos_edge",
    "Verif.Generators.erdos_degree",
    "Verif.Generators.full_law",
    "Verif.Generators.barabasi_law",
    "Verif.Generators.barabasi_degree_less",
    "Verif.Generators.StructWitness.exists_draws",
    "Verif.Generators.StructWitness.star_law",
    "Verif.Generators.StructWitness.chain_law"
   ],
   "note": "Real numbers; that np.random gives independent numbers with the documented distributions is the assumption (RandomStructure), and exists_draws shows that it can be met. barabasi_degree_less shows that the documented expected degree is not met for barabasi-albert."
  },
  {
   "property": "C125",
   "status": "proved",
   "theorems": [
    "Verif.Notears.identified",
    "Verif.Notears.identified_near",
    "Verif.Notears.notears_recovers",
    "Verif.Notears.notearsLasso_recovers",
    "Verif.Notears.notears_no_warning",
    "Verif.Notears.notearsLasso_no_warning",
    "Verif.Notears.Witness.recovery_possible",
    "Verif.Notears.Witness.recoveryLasso_possible",
    "Verif.Notears.Witness.unequal_misleads"
   ],
   "note": "Exact arithmetic. The optimiser (scipy, external) is a parameter; that it does not miss V is a hypothesis, met by the optimisers in recovery_possible and recoveryLasso_possible, which show for all acyclic weights that all hypotheses can be met together."
  },
  {
   "property": "C126",
   "status": "proved",
   "theorems": [
    "Verif.Simulate.generated_graph_is_learned",
    "Verif.Simulate.generated_graph_is_returned",
    "Verif.Simulate.generated_residual",
    "Verif.Simulate.noise_near",
    "Verif.Simulate.Witness.learning_possible"
   ],
   "note": "Exact arithmetic; np.random as independent random numbers with the documented distributions; the optimiser (scipy, external) is a parameter. Root nodes always get noise of scale 1, so that noise_scale=1 is what makes the errors equal in size; with noise_scale=1/2 and the edge weight 1/2 the data have the error sizes of unequal_misleads (C125)."
  },
  {
   "property": "C127",
   "status": "proved",
   "theorems": [
    "Verif.Consistent.fit_cpds_consistent",
    "Verif.Consistent.everything_close",
    "Verif.Consistent.cells_close",
    "Verif.Consistent.frequency_close",
    "Verif.Consistent.IsModel.conditional",
    "Verif.Consistent.IsModel.impossible",
    "Verif.Consistent.rows_exist"
   ],
   "note": "Exact arithmetic (C112 bounds the rounding errors). rows_exist shows that random rows as assumed exist for all conditional probabilities and numbers of rows."
  },
  {
   "property": "C128",
   "status": "proved",
   "theorems": [
    "Verif.BBN.samples_independent",
    "Verif.BBN.draw_samples_law",
    "Verif.BBN.source_exists"
   ],
   "note": "Exact arithmetic. The value 0 of random.random(), for which C28 shows a disagreement, has probability 0. source_exists shows that there is a random source as assumed for every distribution of the choices."
  },
  {
   "property": "C129",
   "status": "proved",
   "theorems": [
    "Verif.Consistent.sample_then_fit",
    "Verif.Consistent.samples_are_rows",
    "Verif.Consistent.rowsFrom_of_joint"
   ],
   "note": "Exact arithmetic. The samples are turned into a data frame as pandas.DataFrame does with a list of dictionaries. The random source is the one of C128."
  },
  {
   "property": "C130",
   "status": "proved",
   "theorems": [
    "Verif.Notears.notearsLasso_empty",
    "Verif.Notears.notearsLasso_empty_iff",
    "Verif.Dynotears.dynotears_empty",
    "Verif.Dynotears.dynotears_empty_iff",
    "Verif.Notears.lasso_minima",
    "Verif.Dynotears.dyn_minima"
   ],
   "note": "Exact arithmetic; scipy's optimiser is a parameter with the named property."
  },
  {
   "property": "C131",
   "status": "proved",
   "theorems": [
    "Verif.Dynotears.identified_dyn",
    "Verif.Dynotears.identified_dyn_near",
    "Verif.Dynotears.dynotears_recovers",
    "Verif.Dynotears.dynotears_no_warning",
    "Verif.Dynotears.Witness.recoveryDyn_possible"
   ],
   "note": "Exact arithmetic; scipy's optimiser is a parameter with the named property."
  },
  {
   "property": "C132",
   "status": "proved",
   "theorems": [
    "Verif.Plots.Display.displayMpl_given",
    "Verif.Plots.Display.displayMpl_new",
    "Verif.Plots.Display.displayMpl_error",
    "Verif.Plots.Display.displayMpl_ok_iff",
    "Verif.Plots.Display.displayMpl_raises",
    "Verif.Plots.Display.run_correct",
    "Verif.Plots.Display.displayIpython_correct"
   ],
   "note": "Graphviz and the PNG decoder are parameters; sizes are rational numbers; matplotlib is modelled by the effects of subplots, imshow, axis and tight_layout."
  },
  {
   "property": "C133",
   "status": "proved",
   "theorems": [
    "Verif.Pytorch.penalisedLoss_linear",
    "Verif.Pytorch.fromNumpy_recovers",
    "Verif.Pytorch.fromNumpy_linear_converges",
    "Verif.Pytorch.recovers_example"
   ],
   "note": "Exact arithmetic; scipy's optimiser is a parameter with the named property."
  },
  {
   "property": "C134",
   "status": "proved",
   "theorems": [
    "Verif.Consistent.predict_optimal",
    "Verif.Consistent.IsModel.accuracy_le",
    "Verif.Consistent.IsModel.conditional_local"
   ],
   "note": "Exact arithmetic; the rows are independent (RowsFrom), as in C127."
  },
  {
   "property": "C135",
   "status": "proved",
   "theorems": [
    "Verif.Consistent.effects_consistent",
    "Verif.Consistent.effects_close",
    "Verif.Consistent.IsModel.overlap"
   ],
   "note": "Exact arithmetic; the rows are independent (RowsFrom), as in C127."
  },
  {
   "property": "C136",
   "status": "proved",
   "theorems": [
    "Verif.Pytorch.fromNumpy_predicts",
    "Verif.Sklearn.fits_recovers",
    "Verif.Sklearn.line_regressor"
   ],
   "note": "fits_recovers is the statement; fromNumpy_predicts is the same for all columns of from_numpy. line_regressor is a concrete case (coefficient 2, prediction 17). As in C133, that the optimiser does not miss the equations and that the final score is small are assumptions; fromNumpy_linear_converges (C133) gives the latter."
  },
  {
   "property": "C137",
   "status": "proved",
   "theorems": [
    "Verif.Recover.eventually_learned",
    "Verif.Recover.generated_learned",
    "Verif.Recover.sameEdges_graph",
    "Verif.Recover.generated_errors",
    "Verif.Recover.Witness.normal_example",
    "Verif.Recover.Witness.learns_applies",
    "Verif.Recover.Witness.normalRows_example"
   ],
   "note": "Learns and LearnsLasso (Recover/Spec.lean) spell out what is required of the call and what is learned; sameEdges_graph reads the result in terms of the nodes of the structure. Standard normal noise is a case (normal_example, normalRows_example), and for all data there is a run to which Learns applies (learns_applies). Outside: noise that is exponential or gumbel has a mean other than 0, and a noise scale other than 1 makes the errors of the roots differ in size (unequal_misleads of C125 shows what can happen then). That the random numbers of numpy are independent is an assumption."
  },
  {
   "property": "C138",
   "status": "proved",
   "theorems": [
    "Verif.Recover.series_learned",
    "Verif.Recover.generated_series_learned",
    "Verif.Recover.series_eventually_learned",
    "Verif.Recover.generated_series_eventually_learned",
    "Verif.Recover.dynWeights_oneLag",
    "Verif.Recover.dynWeights_twoLags",
    "Verif.Recover.lagsVary_of_close",
    "Verif.Recover.close_likely",
    "Verif.Recover.square_bounded",
    "Verif.Recover.DynWitness.loop_example",
    "Verif.Recover.DynWitness.loop_eventually",
    "Verif.Recover.DynWitness.loop_order",
    "Verif.Recover.DynWitness.learnsDyn_applies",
    "Verif.Recover.frame_eventually_learned",
    "Verif.Recover.frame_learned",
    "Verif.Recover.Holds.transform",
    "Verif.Recover.DynWitness.frameOf_holds",
    "Verif.Recover.DynWitness.loop_frames",
    "Verif.Recover.DynWitness.learnsFrame_applies"
   ],
   "note": "Windows, LearnsDyn and Innovations (Recover/DynSpec.lean) spell out what the arrays hold, what is required of the call and what is learned, and what is assumed of the series; Stable (Recover/Stable.lean) is a sufficient condition for bounded mean squares. Two variables in a loop over time with standard normal noise are a case (loop_example, loop_eventually), and for all arrays there is a run to which LearnsDyn applies (learnsDyn_applies). Holds, SameEdgesNamed and LearnsFrame (Recover/DynFrame.lean) are the same for data frames, with loop_frames and learnsFrame_applies as cases. Outside: exponential and gumbel noise and drift, which give errors of mean other than 0. That the random numbers of numpy are independent is an assumption."
  },
  {
   "property": "C139",
   "status": "proved",
   "theorems": [
    "Verif.Network.pipeline_renamed",
    "Verif.Network.fit_renamed",
    "Verif.BBN.rename_answers",
    "Verif.Network.Witness.sameInput",
    "Verif.Network.Witness.renamed_fits"
   ],
   "note": "pipeline_renamed is the whole statement, fit_renamed and rename_answers its two halves (the converse of fit_renamed is fit_renamed for the inverse renaming). The arguments of do_intervention are related by RenamedArg: whether a label is an int is kept. renamed_fits is a concrete case in which the sorted orders of both nodes and states are reversed."
  },
  {
   "property": "C140",
   "status": "proved",
   "theorems": [
    "Verif.Consistent.tables_converge",
    "Verif.Consistent.predictions_become_optimal",
    "Verif.Consistent.effects_converge",
    "Verif.Consistent.rows_exist"
   ],
   "note": "The quantifiers over methods, precisions and interventions are inside the almost-sure statement, so one set of probability 0 serves them all. rows_exist gives infinite sequences of rows for every choice of conditional probabilities; the example in Consistent/Witness runs the theorem on a concrete network."
  },
  {
   "property": "C141",
   "status": "proved",
   "theorems": [
    "Verif.Evaluation.report_converges",
    "Verif.Evaluation.auc_converges",
    "Verif.Evaluation.testRows_exist"
   ],
   "note": "Limits of precision, recall and F1 need positive denominators. testRows_exist gives infinite sequences of rows for every distribution on a finite list of rows; the example in Evaluation/LimitWitness runs both theorems on a concrete fitted network with test rows that are sometimes predicted wrongly."
  },
  {
   "property": "C142",
   "status": "proved",
   "theorems": [
    "Verif.Consistent.rows_enough",
    "Verif.Consistent.RowsFrom.family",
    "Verif.Consistent.hoeffding",
    "Verif.Consistent.RowsFrom.event"
   ],
   "note": "C127 and C140 are the statements without a rate. The example in Consistent/Witness is a network whose tables have six entries."
  },
  {
   "property": "C143",
   "status": "proved",
   "theorems": [
    "Verif.Consistent.sample_frequencies",
    "Verif.Consistent.draws_bound"
   ],
   "note": "The statement bounds the outer measure of the complement, so that no measurability is needed. The example is 1000 samples of the three-node network with evidence."
  },
  {
   "property": "C144",
   "status": "proved",
   "theorems": [
    "Verif.Discretiser.fit_balanced",
    "Verif.Discretiser.population_balanced",
    "Verif.Discretiser.fit_ties"
   ],
   "note": "Exact numbers. The examples are 10 numbers and 4 buckets, and 1000 uniform draws and 4 buckets."
  },
  {
   "property": "C145",
   "status": "proved",
   "theorems": [
    "Verif.Network.equivalent_answers",
    "Verif.Network.EquivalentWitness.k2_differs",
    "Verif.Network.EquivalentWitness.colliders_matter"
   ],
   "note": "The example has three nodes, all linked, in two opposite orders. Exact arithmetic. Engines after interventions are not compared: there equivalent structures differ on purpose."
  },
  {
   "property": "C146",
   "status": "proved",
   "theorems": [
    "Verif.Network.query_frequencies",
    "Verif.Network.EquivalentWitness.collider_frequencies"
   ],
   "note": "Rows with an unknown value are left out, as in fitting. Exact arithmetic. Example: a chain of three nodes."
  },
  {
   "property": "C147",
   "status": "proved",
   "theorems": [
    "Verif.Network.likelihood_mono",
    "Verif.Network.likelihood_equivalent",
    "Verif.Network.EquivalentWitness.k2_scores"
   ],
   "note": "Exact arithmetic. Examples: a collider with the missing edge added (27/4096 becomes 1/64), two complete structures in opposite directions."
  },
  {
   "property": "C148",
   "status": "proved",
   "theorems": [
    "Verif.Network.equivalent_interventions",
    "Verif.Network.EquivalentWitness.interventions_differ"
   ],
   "note": "Exact arithmetic. Example: two complete structures over three nodes that share the root."
  },
  {
   "property": "C149",
   "status": "proved",
   "theorems": [
    "Verif.Network.fit_then_do"
   ],
   "note": "Exact arithmetic. Example: `interventions_differ` computes two answers from data through this theorem."
  },
  {
   "property": "C150",
   "status": "proved",
   "theorems": [
    "Verif.Consistent.several_effects_consistent",
    "Verif.Consistent.several_effects_converge"
   ],
   "note": "Exact arithmetic. Example in Consistent/CausalManyWitness: two nodes set, one of them reset and set again."
  },
  {
   "property": "C151",
   "status": "proved",
   "theorems": [
    "Verif.Evaluation.trained_accuracy"
   ],
   "note": "Exact arithmetic. Example in Evaluation/TrainedWitness, with the same rows for training and testing."
  },
  {
   "property": "C152",
   "status": "proved",
   "theorems": [
    "Verif.Generators.dynamic_law",
    "Verif.Generators.dynamic_law_full",
    "Verif.Generators.dynamic_edge",
    "Verif.Generators.dynamic_outDegree",
    "Verif.Generators.dynamic_inDegree",
    "Verif.Generators.DynLawWitness.exists_dynamic"
   ],
   "note": "Real numbers; that np.random gives independent numbers with the documented distributions is the assumption (RandomDynamic), and exists_dynamic shows that it can be met. The probability of the present is given by erdos_law, full_law and barabasi_law of C124. An example with two variables and one lag is in Generators/Law/DynamicWitness."
  },
  {
   "property": "C153",
   "status": "proved",
   "theorems": [
    "Verif.BBN.do_frontdoor"
   ],
   "note": "The criterion is the specification FrontDoor in BBN/FrontDoor. The example 1 -> 2 -> 3 with a common cause 0 of 1 and 3 meets the conditions; there observing and acting give different probabilities."
  },
  {
   "property": "C154",
   "status": "proved",
   "theorems": [
    "Verif.Recover.torch_eventually_learned",
    "Verif.Recover.regressor_eventually_learned",
    "Verif.Recover.settled_eventually",
    "Verif.Recover.TorchWitness.line_rows",
    "Verif.Recover.TorchWitness.line_eventually",
    "Verif.Recover.TorchWitness.learnsTorch_applies",
    "Verif.Recover.TorchWitness.learnsRegressor_applies"
   ],
   "note": "LinearRows, LearnsTorch and LearnsRegressor (Recover/TorchSpec.lean) spell out what is assumed of the rows, what is required of the call and what is learned. Rows x0 = 3 + e0, x1 = 5 + 2 x0 + e1 with errors given by fair coins are a case (line_rows, line_eventually), and for all tables there are runs to which LearnsTorch and LearnsRegressor apply. The data are rational numbers, computations are exact."
  },
  {
   "property": "C155",
   "status": "proved",
   "theorems": [
    "Verif.Consistent.any_distribution",
    "Verif.Consistent.any_distribution_predict",
    "Verif.Consistent.limit_closest",
    "Verif.Consistent.Witness.wrong_structure"
   ],
   "note": "SameRows, rowProb and limitTable (Consistent/AnyLaw.lean) are the specification: independent rows of the same distribution, probabilities of rows and conditional probabilities. The concrete case is the chain 0 -> 1 -> 2 with rows in which node 2 copies node 0 and node 1 is a separate coin: the answer for linked nodes converges to the truth, the one for the others does not (wrong_structure). The numbers are real numbers, computations are exact."
  },
  {
   "property": "C156",
   "status": "proved",
   "theorems": [
    "Verif.Network.leave_out",
    "Verif.Network.LeaveOutWitness.leave_out_applies",
    "Verif.Network.LeaveOutWitness.unknown_matters"
   ],
   "note": "LeavesOut and SameColumns (Network/LeaveOut.lean) are the specification. The concrete case leaves the node 2 out of 0 -> 1, 0 -> 2, 1 -> 2; leaving out 1 and keeping 2 is not allowed (not_leaves)."
  },
  {
   "property": "C157",
   "status": "proved",
   "theorems": [
    "Verif.Sklearn.reg_units",
    "Verif.Sklearn.clf_units",
    "Verif.Sklearn.fits_standardized",
    "Verif.Sklearn.reg_units_example",
    "Verif.Sklearn.clf_units_example"
   ],
   "note": "Exact arithmetic; the standard deviation is any measure of spread (IsSpread). InUnits, ContinuousAt and Standardized (Sklearn/Units.lean) are the specification. Concrete cases: Sklearn/WitnessUnits."
  },
  {
   "property": "C158",
   "status": "proved",
   "theorems": [
    "Verif.Network.prior_effect",
    "Verif.Network.prior_strength",
    "Verif.Network.prior_predictions",
    "Verif.Network.PriorWitness.prior_effect_applies",
    "Verif.Network.PriorWitness.entries",
    "Verif.Network.PriorWitness.unseen",
    "Verif.Network.PriorWitness.prior_strength_applies",
    "Verif.Network.PriorWitness.prior_predictions_applies"
   ],
   "note": "Exact arithmetic. knownRowsWith, priorRows and Bayesian (Network/Prior.lean) are the specification. Concrete cases: Network/PriorWitness."
  },
  {
   "property": "C159",
   "status": "proved",
   "theorems": [
    "Verif.Network.pooled_entries",
    "Verif.Network.one_more_row",
    "Verif.Network.pooled_predictions",
    "Verif.Network.PooledWitness.pooled_applies",
    "Verif.Network.PooledWitness.entries",
    "Verif.Network.PooledWitness.one_more_applies",
    "Verif.Network.PooledWitness.one_more_entries",
    "Verif.Network.PooledWitness.predictions_apply"
   ],
   "note": "Exact arithmetic. knownRowsWith, priorRows, assumedRows and Accepted (Network/Prior.lean, Network/Pooled.lean) are the specification. Concrete cases: Network/PooledWitness."
  },
  {
   "property": "C160",
   "status": "proved",
   "theorems": [
    "Verif.Network.answers_stable",
    "Verif.Network.answers_stable_distance",
    "Verif.Network.prior_answers",
    "Verif.Network.StableWitness.stable_applies",
    "Verif.Network.StableWitness.prior_answers_applies"
   ],
   "note": "Exact arithmetic. WithinFactor and WithinDistance (Network/Stable.lean) are the specification. Concrete case: Network/StableWitness."
  },
  {
   "property": "C161",
   "status": "proved",
   "theorems": [
    "Verif.Discretiser.fit_units",
    "Verif.Discretiser.transform_monotone",
    "Verif.Discretiser.units_example",
    "Verif.Discretiser.negative_example",
    "Verif.Discretiser.nonlinear_example"
   ],
   "note": "Exact arithmetic. inUnits (Discretiser/Units.lean) is the specification; concrete cases are in the same file."
  },
  {
   "property": "C162",
   "status": "proved",
   "theorems": [
    "Verif.Evaluation.rocAuc_extremes",
    "Verif.Evaluation.ExtremesWitness.extremes_apply",
    "Verif.Evaluation.ExtremesWitness.separated"
   ],
   "note": "The order of the labels is a hypothesis; numbers_area and weather_area (C33) show that perfect predictions get the area 0 without it. TrueFalse (Evaluation/Extremes.lean) is the specification."
  },
  {
   "property": "C163",
   "status": "proved",
   "theorems": [
    "Verif.Evaluation.classificationReport_bounds"
   ],
   "note": "Exact arithmetic. A concrete case that meets the hypotheses is in the same file; test_report (Evaluation/Witness.lean) shows its report."
  }
 ]
}