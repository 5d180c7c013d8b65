{
 "claims": [
  {
   "property": "C01",
   "status": "proved",
   "theorems": [
    "TreeCat.makeCompleteGraph_spec",
    "TreeCat.findCompleteEdge32_exact",
    "TreeCat.findCompleteEdge32_overflow",
    "TreeCat.findCompleteEdge_self"
   ],
   "note": "Grid of the complete graph and its edge index; the int32 variant is exact below vertex 46342 and overflows beyond."
  },
  {
   "property": "C02",
   "status": "proved",
   "theorems": [
    "TreeCat.setEdges_congr",
    "TreeCat.setEdges_getEdges",
    "TreeCat.setEdges_rejects",
    "TreeCat.treeStructure_init"
   ],
   "note": "Canonical form of set_edges."
  },
  {
   "property": "C03",
   "status": "proved",
   "theorems": [
    "TreeCat.findCenter_isCenter",
    "TreeCat.findCenter_center",
    "TreeCat.isCenter_iff_graph"
   ],
   "note": "For every tree the returned vertex has minimal eccentricity; termination included (fuel never runs out)."
  },
  {
   "property": "C04",
   "status": "proved",
   "theorems": [
    "TreeCat.makeProgram_isProgram",
    "TreeCat.makeProgram_default"
   ],
   "note": "Exactly the wanted instructions, once each, in a valid order, for every root and for the default centre."
  },
  {
   "property": "C05",
   "status": "proved",
   "theorems": [
    "TreeCat.sampleTree_isTree",
    "TreeCat.isTree_iff_graph"
   ],
   "note": "All trees, logits, scan orders, draws and buffer contents. The exponential is any function; when all weights are 0, as after underflow, the removed edge is put back. With at most one edge the input list is returned as it is, so it is sorted only if the input was. All -inf logits (nan) are not modelled."
  },
  {
   "property": "C06",
   "status": "proved",
   "theorems": [
    "TreeCat.sampleTree_isTree",
    "TreeCat.jitSetAdd_insert",
    "TreeCat.jitSetRemove_erase",
    "TreeCat.jitSetPop_erase"
   ],
   "note": "Out of bounds access is an exception in the model, and sampleTree_isTree shows that no exception occurs."
  },
  {
   "property": "C07",
   "status": "proved",
   "theorems": [
    "TreeCat.sampleTree_invariant",
    "TreeCat.sampleTree_stationary",
    "TreeCat.sampleTreeStep_law",
    "TreeCat.exists_spanningTrees"
   ],
   "note": "Exact arithmetic with the real exponential; random draws follow the normalised weights (see C12) and the scan order is uniform over permutations."
  },
  {
   "property": "C08",
   "status": "proved",
   "theorems": [
    "TreeCat.estimateTree_max",
    "TreeCat.treeWeights_spec",
    "TreeCat.exists_mst",
    "TreeCat.estimateTree_graph",
    "TreeCat.exists_edges",
    "TreeCat.sum_edgeFinset"
   ],
   "note": "scipy's minimum_spanning_tree is a parameter with its documented contract; exists_mst shows that the contract can be met. Exact arithmetic."
  },
  {
   "property": "C09",
   "status": "proved",
   "theorems": [
    "TreeCat.triangularToSquare_spec",
    "TreeCat.triangularToSquare_rejects",
    "TreeCat.triangleSize_eq_round"
   ],
   "note": "Triangular to square conversion."
  },
  {
   "property": "C10",
   "status": "proved",
   "theorems": [
    "TreeCat.printTree_outline",
    "TreeCat.printTree_rejects",
    "TreeCat.isDist_iff_graph"
   ],
   "note": "All trees, name lists and roots. With repeated names the root is the first vertex that has the root's name, as in the code."
  },
  {
   "property": "C100",
   "status": "proved",
   "theorems": [
    "TreeCat.posterior_renamed",
    "TreeCat.train_renamed",
    "TreeCat.train_uniform",
    "TreeCat.posterior_moved",
    "TreeCat.train_reordered"
   ],
   "note": "In exact arithmetic, by C52. The symmetry holds in the limit of many full epochs; that the bounds vanish at a geometric rate is part of the theorems."
  },
  {
   "property": "C101",
   "status": "proved",
   "theorems": [
    "TreeCat.posterior_permuted",
    "TreeCat.train_permuted"
   ],
   "note": "In exact arithmetic, by C52. The bound vanishes at a geometric rate with the number of full epochs."
  },
  {
   "property": "C102",
   "status": "proved",
   "theorems": [
    "TreeCat.trainedModel_renamed",
    "TreeCat.dataProb_renamed",
    "TreeCat.server_sample_renamed",
    "TreeCat.marginals_renamed",
    "TreeCat.server_logprob_renamed",
    "TreeCat.latentPerplexity_renamed",
    "TreeCat.observedPerplexity_renamed",
    "TreeCat.latentCorrelation_renamed"
   ],
   "note": "Exact arithmetic. The two servers may read different uninitialised memory. observed_perplexity with its default argument raises for every model (C28)."
  },
  {
   "property": "C103",
   "status": "proved",
   "theorems": [
    "TreeCat.trainedModel_permuted",
    "TreeCat.dataProb_permuted",
    "TreeCat.server_logprob_permuted",
    "TreeCat.server_sample_permuted",
    "TreeCat.latentPerplexity_permuted",
    "TreeCat.observedPerplexity_permuted",
    "TreeCat.latentCorrelation_permuted",
    "TreeCat.longModel_backwards",
    "TreeCat.marginals_not_permuted"
   ],
   "note": "Exact arithmetic. The last clause, on marginals, is the counterexample marginals_not_permuted; it is a consequence of the defect of C26."
  },
  {
   "property": "C104",
   "status": "proved",
   "theorems": [
    "TreeCat.train_predictive",
    "TreeCat.trainedModel_eq",
    "TreeCat.reported_eq",
    "TreeCat.modelOf_valid",
    "TreeCat.modelOf_consistent",
    "TreeCat.train_sample",
    "TreeCat.drawn_eq"
   ],
   "note": "Exact arithmetic, as C52. The trained model is shown to be the model of its assignments and tree (trainedModel_eq); the limit is train_converges_of. Samples: train_sample."
  },
  {
   "property": "C105",
   "status": "proved",
   "theorems": [
    "TreeCat.train_predictive_permuted",
    "TreeCat.modelOf_permuted",
    "TreeCat.sum_posterior_permuted",
    "TreeCat.train_sample_permuted",
    "TreeCat.train_predictive_reordered",
    "TreeCat.modelOf_moved"
   ],
   "note": "Without learning_estimate_tree: with it, ties between maximal spanning trees may be broken differently in the two orders. Example: exTable and swapTable with a row in both orders. The same for products of functions of sampled rows (train_sample_permuted). Order of the rows: train_predictive_reordered, with or without learning_estimate_tree."
  },
  {
   "property": "C106",
   "status": "proved",
   "theorems": [
    "TreeCat.ensemble_predictive",
    "TreeCat.trainMember_avg",
    "TreeCat.ensembleProb_eq",
    "TreeCat.independent_mse",
    "TreeCat.ensemble_misses",
    "TreeCat.ensemble_drawn",
    "TreeCat.ensembleDrawn_eq",
    "TreeCat.ensemble_consistent"
   ],
   "note": "Members trained with consecutive seeds are modelled as independent (stated in DESIGN.md). Example: exTable with ensembles of any size. ensemble_misses bounds the probability of errors of a given size. ensemble_drawn: rows drawn from the ensemble. ensemble_consistent: convergence in probability."
  },
  {
   "property": "C107",
   "status": "proved",
   "theorems": [
    "TreeCat.cat_prints",
    "TreeCat.cat_stored",
    "TreeCat.cat_json"
   ],
   "note": "The text printed for an object is not modelled."
  },
  {
   "property": "C108",
   "status": "proved",
   "theorems": [
    "TreeCat.assertEqual_iff",
    "TreeCat.assertEqual_comm",
    "TreeCat.assertEqual_self",
    "TreeCat.assertEqual_not_transitive"
   ],
   "note": "Nested lists, tuples, infinities and other objects are not modelled; numpy's assert_array_equal is modelled as documented."
  },
  {
   "property": "C109",
   "status": "proved",
   "theorems": [
    "TreeCat.ensemble_tail",
    "TreeCat.ensemble_tail_rows",
    "TreeCat.ensemble_drawn_tail"
   ],
   "note": "Members are trained independently (trusted base); real arithmetic. ensemble_drawn_tail: the same for rows drawn from the ensemble."
  },
  {
   "property": "C11",
   "status": "proved",
   "theorems": [
    "TreeCat.orderVertices_spec",
    "TreeCat.invertOrder_spec",
    "TreeCat.pack_layout"
   ],
   "note": "order_vertices returns mutually inverse permutations for every tree and every iteration order of the neighbour sets; seen from a centre every subtree is an interval, packed as the statement says (Spec.Packed)"
  },
  {
   "property": "C110",
   "status": "proved",
   "theorems": [
    "TreeCat.noJit_decorates"
   ],
   "note": "The decorators in the code are the cases of the example beside the theorem."
  },
  {
   "property": "C12",
   "status": "proved",
   "theorems": [
    "TreeCat.Util.sampleFromProbs_support",
    "TreeCat.Util.sampleFromProbs_law",
    "TreeCat.Util.sampleFromProbs2_rows",
    "TreeCat.Util.sampleFromProbs_nil"
   ],
   "note": "Exact arithmetic. The law is the Lebesgue measure of the set of uniform draws selecting each index."
  },
  {
   "property": "C13",
   "status": "partial",
   "theorems": [
    "TreeCat.Util.quantizeRow_optimal_partial",
    "TreeCat.Util.quantizeFromProbs2_optimal_partial",
    "TreeCat.Util.quantize_wraps"
   ],
   "note": "Proved for every resolution up to 127. Above that the claim is false: the result array is int8 and wraps (quantize_wraps)."
  },
  {
   "property": "C14",
   "status": "proved",
   "theorems": [
    "TreeCat.Util.makeRaggedIndex_spec",
    "TreeCat.Util.makeRaggedIndex_gaps",
    "TreeCat.Util.makeRaggedMask_spec",
    "TreeCat.Util.makeRaggedMask_wrong_size",
    "TreeCat.Util.countObservations_spec",
    "TreeCat.Util.countObservations_wrong_width",
    "TreeCat.Util.guessCounts_spec",
    "TreeCat.Util.guessCounts_empty"
   ],
   "note": "Block totals are assumed to fit int8, as the property says."
  },
  {
   "property": "C15",
   "status": "proved",
   "theorems": [
    "TreeCat.Util.parallelMap_ok",
    "TreeCat.Util.parallelMap_error"
   ],
   "note": "multiprocessing.Pool.map is modelled after CPython's MapResult: chunks finish in an arbitrary order. The mapped function is a pure function of its argument."
  },
  {
   "property": "C16",
   "status": "proved",
   "theorems": [
    "TreeCat.annealingSchedule_spec",
    "TreeCat.annealingSchedule_one_epoch",
    "TreeCat.annealingSchedule_rejects",
    "TreeCat.exists_epoch_bound"
   ],
   "note": "termination with an explicit bound, legality, final state, number of additions, and the timing of sample_tree, for every shuffle; epochs and rate range over any ordered field (float rounding of the accumulated state is not modelled)"
  },
  {
   "property": "C17",
   "status": "proved",
   "theorems": [
    "TreeCat.trainer_matches",
    "TreeCat.addRow_rejects",
    "TreeCat.removeRow_rejects",
    "TreeCat.addRow_frame",
    "TreeCat.removeRow_frame",
    "TreeCat.addRow_phantom",
    "TreeCat.addRow_phantom_breaks",
    "TreeCat.removeRow_phantom",
    "TreeCat.logprob_phantom"
   ],
   "note": "Assignments lie in range(M) by their type Fin M. add_row with a row id out of range puts the id into the set before the IndexError is raised; the statement is about successful calls and the rejected ones. These theorems show the effect."
  },
  {
   "property": "C18",
   "status": "proved",
   "theorems": [
    "TreeCat.train_spec"
   ],
   "note": "Multinomial features only: any other feature type makes the code raise NotImplementedError. Rational or real arithmetic instead of floating point. The minimum spanning tree of scipy is an arbitrary function satisfying MstContract."
  },
  {
   "property": "C19",
   "status": "proved",
   "theorems": [
    "TreeCat.addRow_law",
    "TreeCat.logprob_likelihood",
    "TreeCat.addRow_gibbs",
    "TreeCat.meas_pole"
   ],
   "note": "Over the reals; gammaln is log Gamma. Data must be nonnegative and every feature must have a column (with none, logprob takes gammaln at its pole, meas_pole)."
  },
  {
   "property": "C20",
   "status": "partial",
   "theorems": [
    "TreeCat.edgeLogits_partial",
    "TreeCat.logprob_diff",
    "TreeCat.edgeLogits_stale"
   ],
   "note": "The claim as stated is false of the code: training.py:584 compares the number of added rows with the number of columns, and edgeLogits_stale exhibits two reachable states that differ only in the assignment of a removed row and have different logits. edgeLogits_partial is the claim for every other subsample; logprob_diff (all rows added) holds without exception."
  },
  {
   "property": "C21",
   "status": "proved",
   "theorems": [
    "TreeCat.trainEnsemble_runs",
    "TreeCat.trainEnsemble_missing",
    "TreeCat.trainEnsemble_raises"
   ],
   "note": "A trainer run is a function of table, prior and config (train seeds the generators first)."
  },
  {
   "property": "C22",
   "status": "proved",
   "theorems": [
    "TreeCat.server_init",
    "TreeCat.logprob_exact",
    "TreeCat.server_logprob_exact",
    "TreeCat.logprob_root"
   ],
   "note": "exp(logprob) equals the sum over all latent assignments for every valid model, row and root; the server is constructed without error. Over the reals."
  },
  {
   "property": "C23",
   "status": "proved",
   "theorems": [
    "TreeCat.logprob_marginal",
    "TreeCat.logprob_conditional",
    "TreeCat.logprob_missing",
    "TreeCat.logprob_normalised",
    "TreeCat.trainedModel_valid",
    "TreeCat.train_serve_normalised"
   ],
   "note": "For consistent models, and trained models are shown to be consistent for every random outcome of training."
  },
  {
   "property": "C24",
   "status": "proved",
   "theorems": [
    "TreeCat.sampleLoop_exact",
    "TreeCat.server_sample_exact",
    "TreeCat.sampleMean_const"
   ],
   "note": "Joint law of the N samples by expected values of products of arbitrary functions of each sample. Counts up to 127 (int8 cells)."
  },
  {
   "property": "C25",
   "status": "proved",
   "theorems": [
    "TreeCat.server_sample_counts",
    "TreeCat.server_sample_empty"
   ],
   "note": "TreeCatServer.sample for every random outcome; the ensemble is in C31."
  },
  {
   "property": "C26",
   "status": "partial",
   "theorems": [
    "TreeCat.marginals_sum",
    "TreeCat.marginals_exact_partial",
    "TreeCat.marginals_exact_of_evidence",
    "TreeCat.marginals_exact_root",
    "TreeCat.server_marginals_partial",
    "TreeCat.marginals_not_exact"
   ],
   "note": "The claim is false of the code: messages_out omits the other branches. Proved instead: blocks are probability vectors; each is exactly the conditional given evidence on ancestors and descendants of the feature; exact for the root and whenever other branches carry no evidence; a counterexample to the full claim."
  },
  {
   "property": "C27",
   "status": "proved",
   "theorems": [
    "TreeCat.medianRow_spec",
    "TreeCat.server_median",
    "TreeCat.server_median_empty"
   ],
   "note": "Relative to the marginals that the server computes (see C26 for those); counts at most 127 as the arrays are int8, blocks not empty."
  },
  {
   "property": "C28",
   "status": "partial",
   "theorems": [
    "TreeCat.latentPerplexity_spec",
    "TreeCat.observedPerplexity_partial",
    "TreeCat.observedPerplexity_not_multinomial",
    "TreeCat.observedPerplexity_ignores",
    "TreeCat.observedPerplexity_none",
    "TreeCat.multinomialEntropy_spec",
    "TreeCat.ensemble_latentPerplexity",
    "TreeCat.ensemble_observedPerplexity_partial"
   ],
   "note": "Latent part proved for every valid model. Observed perplexity is exact and in [1, number of categories] for one observation per feature; the claim about requested counts is false of the code: serving.py:453 replaces any given counts by ones and crashes on None (observedPerplexity_ignores, _none, _not_multinomial). multinomialEntropy_spec shows the helper itself is right for counts it accepts. The entropy helper raises NotImplementedError above 2 categories and 1 observation."
  },
  {
   "property": "C29",
   "status": "proved",
   "theorems": [
    "TreeCat.latentCorrelation_eq",
    "TreeCat.latentCorrelation_spec",
    "TreeCat.rho_eq_zero_iff"
   ],
   "note": "Over the reals, for every valid consistent model: the message passing equals rho of the exact pairwise joint (a sum over all latent assignments); symmetric, in [0,1), diagonal dominant; zero exactly for independent pairs."
  },
  {
   "property": "C30",
   "status": "proved",
   "theorems": [
    "TreeCat.ensemble_init",
    "TreeCat.ensemble_logprob",
    "TreeCat.ensemble_logprob_sum",
    "TreeCat.ensemble_latentPerplexity",
    "TreeCat.ensemble_latentCorrelation"
   ],
   "note": "Over the reals; any nonempty list of valid models of the same features."
  },
  {
   "property": "C31",
   "status": "proved",
   "theorems": [
    "TreeCat.ensemble_sample_counts",
    "TreeCat.ensemble_sampleTrees"
   ],
   "note": "For every outcome of the multinomial split, of the members and of the shuffle. Each returned sample is an outcome of a member; the sizes add up to N."
  },
  {
   "property": "C32",
   "status": "proved",
   "theorems": [
    "TreeCat.dataServer_sample",
    "TreeCat.dataServer_init",
    "TreeCat.importData_serves"
   ],
   "note": "For every imported dataset with at least one row and every non-empty list of valid models of its features: construction succeeds and sampling succeeds for every random outcome; each row has exactly the observed features, each with a legal value. Evidence must be readable by import_rows."
  },
  {
   "property": "C33",
   "status": "partial",
   "theorems": [
    "TreeCat.dataServer_logprob_evidence",
    "TreeCat.dataServer_median_dict",
    "TreeCat.dataServer_logprob_partial",
    "TreeCat.dataServer_median_partial"
   ],
   "note": "The property is false: logprob with evidence always raises, median and mode of a dict always raise (proved). Proved instead: logprob without evidence is exact, and median of evidence given as a list returns full legal rows for a single model."
  },
  {
   "property": "C34",
   "status": "partial",
   "theorems": [
    "TreeCat.importRows_spec",
    "TreeCat.exportRows_importRows_partial",
    "TreeCat.exportRows_importRows_lost",
    "TreeCat.importRows_exportRows",
    "TreeCat.importRows_dict"
   ],
   "note": "Import is characterised exactly, including when it raises; importing an export is the identity on all nonnegative arrays that can be exported. Exporting an import returns exactly the valid cells unless an ordinal has a single possible value, in which case the cell is lost (proved as a counterexample), so the claim as stated is false for such schemas."
  },
  {
   "property": "C35",
   "status": "partial",
   "theorems": [
    "TreeCat.loadData_partial",
    "TreeCat.loadData_eq_importRows_partial",
    "TreeCat.loadData_shape_partial",
    "TreeCat.loadData_no_rows",
    "TreeCat.loadData_repeated",
    "TreeCat.loadDataText_written_partial"
   ],
   "note": "Proved for all csv contents with at least one row; a csv file with a header and no rows raises ZeroDivisionError in the printed summary, which is proved. Block shapes are proved for ranges that fit int8."
  },
  {
   "property": "C36",
   "status": "partial",
   "theorems": [
    "TreeCat.guessSchema_partial",
    "TreeCat.guessFeatures_spec",
    "TreeCat.guessFeatureType_rule",
    "TreeCat.guessSchema_empty",
    "TreeCat.guessSchema_sources_wrong"
   ],
   "note": "Everything except the source column holds for all files; the source column also lists files that do not contain the feature, which guessSchema_sources_wrong proves."
  },
  {
   "property": "C37",
   "status": "proved",
   "theorems": [
    "TreeCat.guessSchema_loads",
    "TreeCat.guessSchemaText_loads",
    "TreeCat.loadSchema_untyped"
   ],
   "note": "On rows and on the texts of the csv files. File names are assumed to have no carriage return."
  },
  {
   "property": "C38",
   "status": "partial",
   "theorems": [
    "TreeCat.loadSchema_indices",
    "TreeCat.loadSchema_iff",
    "TreeCat.loadSchema_describes",
    "TreeCat.loadSchema_groups_raise",
    "TreeCat.treePriorOf_partial",
    "TreeCat.addGroups_partial",
    "TreeCat.addGroups_bad",
    "TreeCat.groupsPrior_partial",
    "TreeCat.treePriorOf_loop"
   ],
   "note": "Indices are proved. The clause about groups is false: any row with four fields makes load_schema raise ValueError (loadSchema_groups_raise). addGroups_partial and treePriorOf_partial show that the code behind the failing line would be right. feature_index is the inverse only if names are distinct; in general it gives the last position. groupsPrior_partial joins the two loops; treePriorOf_loop shows where a group with a feature as source and target would put its logit."
  },
  {
   "property": "C39",
   "status": "proved",
   "theorems": [
    "TreeCat.normalize_words",
    "TreeCat.normalize_congr",
    "TreeCat.normalize_idem",
    "TreeCat.normalize_lower",
    "TreeCat.normalize_space",
    "TreeCat.normalize_empty",
    "TreeCat.normalize_not_na",
    "TreeCat.asciiText_lawful"
   ],
   "note": "For every lower-casing with the listed laws of str.lower, which the ASCII one satisfies."
  },
  {
   "property": "C40",
   "status": "partial",
   "theorems": [
    "TreeCat.pdOuterJoin_spec",
    "TreeCat.pdOuterJoin_loses_column",
    "TreeCat.pdOuterJoin_reserved"
   ],
   "note": "Proved for all lists of frames whose column names do not end in _JOIN_, which is what the claim lacks: with such names a column can be lost or the assertion fails, both proved. The operations of pandas are modelled; the order of the rows is not."
  },
  {
   "property": "C41",
   "status": "partial",
   "theorems": [
    "TreeCat.Config.serialize_injective",
    "TreeCat.Config.deserialize_serialize_partial",
    "TreeCat.Config.roundtrip_negative_fails",
    "TreeCat.Config.sortedKeys_sorted"
   ],
   "note": "Strings never collide, for all integer values. The round trip is proved for nonnegative values; for any negative value it is refuted (roundtrip_negative_fails): the minus sign is read as a separator and deserialize_config raises AssertionError."
  },
  {
   "property": "C42",
   "status": "proved",
   "theorems": [
    "TreeCat.Config.makeConfig_ok",
    "TreeCat.Config.makeConfig_unknown",
    "TreeCat.Config.default_config_never_changes"
   ],
   "note": "Options have distinct names because they are Python keyword arguments. Option values are integers (int(value) is the identity on them)."
  },
  {
   "property": "C43",
   "status": "proved",
   "theorems": [
    "TreeCat.splitData_spec",
    "TreeCat.splitData_partition",
    "TreeCat.training_validation",
    "TreeCat.trainingTable_spec"
   ],
   "note": "Assumes only that numpy's seeded randint returns an array of the requested shape with entries below the bound, as a function of its arguments (Spec.Randint)."
  },
  {
   "property": "C44",
   "status": "proved",
   "theorems": [
    "TreeCat.readParamCsv_spec",
    "TreeCat.readParamCsv_raises",
    "TreeCat.readParamCsv_default"
   ],
   "note": "readParamCsv_default records that without the option model_ensemble_size only folds 0 to 3 of 8 are listed."
  },
  {
   "property": "C45",
   "status": "partial",
   "theorems": [
    "TreeCat.ensemble_sample_exact",
    "TreeCat.sampleMean_row",
    "TreeCat.ensemble_sample_rows",
    "TreeCat.ways_le_one",
    "TreeCat.ensemble_sample_logprob",
    "TreeCat.ensemble_sample_not_conditional"
   ],
   "note": "Without evidence: proved for all ensembles, counts and numbers of samples; the rows are independent, each from the uniform mixture, and the probability of a row is exp(logprob) times the number of sequences of observations with its counts (one for categorical requests). With evidence the claim is false of the code: members are weighted equally rather than by the probability of the evidence; the law that is drawn from is proved (ensemble_sample_exact, ensemble_sample_rows) and so is a case where it is not the conditioned mixture. Uniform permutations and multinomial draws of numpy are assumed."
  },
  {
   "property": "C46",
   "status": "partial",
   "theorems": [
    "TreeCat.Csv.read_write",
    "TreeCat.Csv.read_total",
    "TreeCat.Csv.read_write_read",
    "TreeCat.Csv.read_write_cr",
    "TreeCat.Csv.readL_iff",
    "TreeCat.Csv.readL_write",
    "TreeCat.Csv.readL_open_quote",
    "TreeCat.Csv.readL_default"
   ],
   "note": "True for fields without carriage returns, which includes everything that csv_reader yields; read_write_cr proves that a carriage return comes back as a line feed. With CPython's limit of 131072 characters per field, reading raises exactly if a field is longer (readL_iff); 'reading any text succeeds' is false in that case."
  },
  {
   "property": "C47",
   "status": "proved",
   "theorems": [
    "TreeCat.importData_spec",
    "TreeCat.importDataText_guess"
   ],
   "note": "From the texts of csv files to the table, through the csv model."
  },
  {
   "property": "C48",
   "status": "proved",
   "theorems": [
    "TreeCat.featureDensity_spec"
   ],
   "note": "Ordinals with a single possible value count as never observed."
  },
  {
   "property": "C49",
   "status": "partial",
   "theorems": [
    "TreeCat.train_eval",
    "TreeCat.readParamCsv_good",
    "TreeCat.crossValidation_partial",
    "TreeCat.crossValidation_default"
   ],
   "note": "The pairing of configs and models is proved for nonnegative values (others do not survive serialisation, C41). Coverage of all cells is proved when the option model_ensemble_size is given; without it crossValidation_default proves it false (4 folds of 8)."
  },
  {
   "property": "C50",
   "status": "partial",
   "theorems": [
    "TreeCat.evaluateModel_spec",
    "TreeCat.evaluateModel_bounds",
    "TreeCat.unobserved_full"
   ],
   "note": "Both scores are characterised exactly for all valid models and tables with nonempty blocks and cell totals up to 127. The last clause is false of the code: cells of a feature that no row observes count as relevant and inflate the denominator (unobserved_full)."
  },
  {
   "property": "C51",
   "status": "proved",
   "theorems": [
    "TreeCat.resampleRow_invariant",
    "TreeCat.resampleTree_invariant",
    "TreeCat.fullScan_invariant",
    "TreeCat.fullScan_stationary",
    "TreeCat.posterior_logprob",
    "TreeCat.exists_holds"
   ],
   "note": "Expectation semantics over the reals: exp and lgamma are the real functions, choices have the probabilities of their weights, permutations are uniform. Trees are canonical lists of edges. exists_holds shows that every pair of tree and assignments is held by a trainer that calls reach, so the hypotheses are met. Multinomial features only, as in the code (other types raise)."
  },
  {
   "property": "C52",
   "status": "proved",
   "theorems": [
    "TreeCat.fullScan_converges",
    "TreeCat.fullScan_tendsto",
    "TreeCat.Kern.fullScan",
    "TreeCat.exists_scan",
    "TreeCat.train_converges",
    "TreeCat.train_tendsto",
    "TreeCat.train_tree_tendsto"
   ],
   "note": "Same semantics as C51. Doeblin's theorem is proved in Lemmas/Avg. The rate depends on the table, the prior and the number of clusters; no explicit bound is given. Floating-point underflow of weights is not modelled. A whole run of train, from the constructor through annealing, full epochs and the final estimate of the tree, converges at the same rate."
  },
  {
   "property": "C53",
   "status": "proved",
   "theorems": [
    "TreeCat.generateTree_isTree",
    "TreeCat.generateTree_zero",
    "TreeCat.generateTree_positive",
    "TreeCat.generateTree_every"
   ],
   "note": "The positive probability is over real numbers with the real exponential function and uniform shuffles."
  },
  {
   "property": "C54",
   "status": "proved",
   "theorems": [
    "TreeCat.generateDataset_spec",
    "TreeCat.generateFakeModel_spec",
    "TreeCat.generateFakeEnsemble_spec"
   ],
   "note": "For draws that fit int8; larger counts wrap, as generateDataset_spec states."
  },
  {
   "property": "C55",
   "status": "proved",
   "theorems": [
    "TreeCat.generateCleanDataset_spec",
    "TreeCat.generateCleanDataset_law",
    "TreeCat.generateCleanDataset_cell",
    "TreeCat.generateCleanDataset_pair",
    "TreeCat.cleanPair_eq",
    "TreeCat.clean_recover_agreement",
    "TreeCat.clean_recover_info"
   ],
   "note": "Assumes the contract of minimum_spanning_tree for the constructor of the server."
  },
  {
   "property": "C56",
   "status": "proved",
   "theorems": [
    "TreeCat.server_sampleTrees_converges",
    "TreeCat.ensemble_sampleTrees_mixture",
    "TreeCat.server_sampleTrees_chain",
    "TreeCat.ensemble_sampleTrees_each"
   ],
   "note": "Each tree of a server within rho^(i+1) of its posterior mean for a rate below one; the expected sum over the trees of an ensemble within a constant of n times the mean under the mixture. Exact real arithmetic; random orders and draws are uniform and exact."
  },
  {
   "property": "C57",
   "status": "partial",
   "theorems": [
    "TreeCat.plotCircular_spec",
    "TreeCat.plotCircular_inside",
    "TreeCat.contractPositions_spec",
    "TreeCat.contractPositions_force_partial",
    "TreeCat.contractPositions_inside",
    "TreeCat.plotChord_inside",
    "TreeCat.onCircle_inj",
    "TreeCat.contractPositions_hub",
    "TreeCat.plotCircular_single"
   ],
   "note": "All of it except the force: the code moves a vertex along the last edge on each side only, so the documented sum over all edges holds only if no vertex is twice first or twice second end (contractPositions_force_partial) and is false otherwise (contractPositions_hub). A single feature raises with the default contraction (plotCircular_single)."
  },
  {
   "property": "C58",
   "status": "partial",
   "theorems": [
    "TreeCat.featureOverlap_tree",
    "TreeCat.featureOverlap_cluster",
    "TreeCat.featureOverlap_other",
    "TreeCat.ShowsOverlap.symm",
    "TreeCat.laplacian_symm",
    "TreeCat.laplacian_sum",
    "TreeCat.laplacian_energy",
    "TreeCat.laplacian_kernel",
    "TreeCat.layoutTree_raises"
   ],
   "note": "The overlap plot and the Laplacian are proved. layout_tree never returns eigenvectors: it passes three numbers where scipy unpacks two (layoutTree_raises)."
  },
  {
   "property": "C59",
   "status": "proved",
   "theorems": [
    "TreeCat.addPanning_spec",
    "TreeCat.addPanning_twice",
    "TreeCat.lines_infix",
    "TreeCat.universal_infix"
   ],
   "note": "A root element without attributes is outside the hypotheses; its output closes a group that was never opened (example beside the theorem)."
  },
  {
   "property": "C60",
   "status": "proved",
   "theorems": [
    "TreeCat.quickStart",
    "TreeCat.importTrainServe",
    "TreeCat.pickle_roundtrip",
    "TreeCat.served_queries",
    "TreeCat.importDataCmd_groups",
    "TreeCat.serveModel_single",
    "TreeCat.guessSchemaCmd_iff",
    "TreeCat.importDataCmd_texts"
   ],
   "note": "Files are modelled by their decoded text or by the stored object; that pickle and jsonpickle restore the object is a contract of those libraries (see DESIGN.md)."
  },
  {
   "property": "C61",
   "status": "proved",
   "theorems": [
    "TreeCat.edgeLogits_par",
    "TreeCat.edgeLogitsSeq_eq",
    "TreeCat.computeEdgeLogits_loop"
   ],
   "note": "The hypothesis that there are fewer rows than table entries is how the table is built (training.py:504-506)."
  },
  {
   "property": "C62",
   "status": "proved",
   "theorems": [
    "TreeCat.generateDatasetFile_spec",
    "TreeCat.generateModelFile_spec",
    "TreeCat.generateModelFile_trains",
    "TreeCat.generateDatasetFile_exact",
    "TreeCat.generateDatasetFile_stale",
    "TreeCat.datasetName_ne_modelName",
    "TreeCat.generateSeeded_iff"
   ],
   "note": "A rate is a rational number, as every float is. generateDatasetFile_stale proves that rates which round to the same tenth share a file."
  },
  {
   "property": "C63",
   "status": "proved",
   "theorems": [
    "TreeCat.Util.floatSample_range",
    "TreeCat.Util.floatSample_support",
    "TreeCat.Util.floatSample_float32_support",
    "TreeCat.Util.floatSample_float64_support",
    "TreeCat.Util.floatSample_accuracy",
    "TreeCat.Util.floatSample_float32_accuracy",
    "TreeCat.Util.floatSample_float64_accuracy",
    "TreeCat.Util.floatSample_tiny",
    "TreeCat.Util.floatSample_narrow",
    "TreeCat.Util.roundTo_isRounding"
   ],
   "note": "Rounding is modelled on rationals. floatSample_tiny and floatSample_narrow show that the bound on float64 weights and the wide product are needed."
  },
  {
   "property": "C64",
   "status": "proved",
   "theorems": [
    "TreeCat.edgeWalk_near",
    "TreeCat.edgeWalk_exact",
    "TreeCat.edgeWalk_float32",
    "TreeCat.edgeWalk_default",
    "TreeCat.edgeWalk_lost",
    "TreeCat.edgeWalk_inexact"
   ],
   "note": "One entry is followed on its own; the update touches each entry independently."
  },
  {
   "property": "C65",
   "status": "proved",
   "theorems": [
    "TreeCat.floatAddRow_ok",
    "TreeCat.floatAddRow_run",
    "TreeCat.floatRow_exact",
    "TreeCat.floatAddRow_underflow",
    "TreeCat.floatSampleRow_ok",
    "TreeCat.floatSampleRow_grid",
    "TreeCat.floatRun_inv",
    "TreeCat.floatStats_run",
    "TreeCat.seqDot_ok",
    "TreeCat.numpyOps_ok"
   ],
   "note": "Bounds: categorical data, fewer than 2^14 rows, at most 128 clusters. Summation in np.dot is a contract (DotOk), met by the sequential sum."
  },
  {
   "property": "C66",
   "status": "proved",
   "theorems": [
    "TreeCat.trainModel_dispatch",
    "TreeCat.train_eq_base",
    "TreeCat.gaussTrain_raises",
    "TreeCat.gaussTrain_again",
    "TreeCat.gaussRemoveRow_raises",
    "TreeCat.gaussUpdate_raises",
    "TreeCat.gaussUpdate_missing",
    "TreeCat.gaussVertEdge_spec",
    "TreeCat.internalizeTable_spec",
    "TreeCat.gaussSetEdges_spec",
    "TreeCat.gaussCell_state"
   ],
   "note": "The code behind the missing sampler could not work: with any observed cell the update of feat_ss raises in every dimension (gaussUpdate_raises), and remove_row reads an attribute that does not exist."
  },
  {
   "property": "C67",
   "status": "proved",
   "theorems": [
    "TreeCat.profiling_spec"
   ],
   "note": "Programs are trees, so only terminating runs are covered."
  },
  {
   "property": "C68",
   "status": "partial",
   "theorems": [
    "TreeCat.floatLogprob_ok",
    "TreeCat.floatSample_ok",
    "TreeCat.serverInit_exact",
    "TreeCat.floatLogprob_exact",
    "TreeCat.floatMarginals_exact",
    "TreeCat.numpyServe_ok",
    "TreeCat.floatMarginals_nan",
    "TreeCat.floatLogprob_ordinal"
   ],
   "note": "The clause on marginals is false of the code: messages_out is never scaled, and floatMarginals_nan gives a valid model of 29 features and a row for which marginals is nan while logprob works. The rest is proved. floatLogprob_ordinal shows that the condition on the row is needed."
  },
  {
   "property": "C69",
   "status": "proved",
   "theorems": [
    "TreeCat.floatAnnealingSchedule_exact",
    "TreeCat.floatAnnealingSchedule_spec",
    "TreeCat.floatAnnealingSchedule_differs"
   ],
   "note": "Any monotone rounding to float64 that leaves float64 alone. The third theorem shows why (a) needs whole numbers."
  },
  {
   "property": "C70",
   "status": "proved",
   "theorems": [
    "TreeCat.floatLogprob_near",
    "TreeCat.floatLogprob_underflow",
    "TreeCat.numpyServe_near",
    "TreeCat.floatLogprob_near_few",
    "TreeCat.floatLogprob_clear"
   ],
   "note": "The condition that no entry of a message underflows is on the run (Spec.noUnderflow). floatLogprob_underflow shows that it cannot be dropped. numpyServe_near shows that the assumptions on the arithmetic can be met."
  },
  {
   "property": "C71",
   "status": "proved",
   "theorems": [
    "TreeCat.floatQuantRow_near",
    "TreeCat.floatQuantRow_fixed",
    "TreeCat.floatMedianRow_near",
    "TreeCat.seqSum_close",
    "TreeCat.floatQuantRow_differs",
    "TreeCat.floatQuantRow_nan",
    "TreeCat.floatMedian_nan"
   ],
   "note": "np.sum may add in any order (SumClose); seqSum_close shows that the assumption can be met. floatQuantRow_differs shows that the error in (b) is real, floatMedian_nan is the witness of (e)."
  },
  {
   "property": "C72",
   "status": "proved",
   "theorems": [
    "TreeCat.floatMarginals_near",
    "TreeCat.floatMedian_near",
    "TreeCat.numpyServe_near",
    "TreeCat.seqSum_close",
    "TreeCat.floatMarginals_near_few",
    "TreeCat.floatMedian_near_few",
    "TreeCat.floatMarginals_clear"
   ],
   "note": "The condition that nothing underflows or overflows is on the run (Spec.marginalsSafe); floatMarginals_nan (C68) shows that it cannot be dropped. numpyServe_near and seqSum_close show that the assumptions on the arithmetic can be met."
  },
  {
   "property": "C73",
   "status": "proved",
   "theorems": [
    "TreeCat.server_sampleTrees_float32_near",
    "TreeCat.server_sampleTrees_float32_converges",
    "TreeCat.floatTreeStep_near"
   ],
   "note": "Assumes of np.exp (ExpOk): exact at 0, float32 results, not negative, absolute error at most eta for numbers that are not positive; floorExp_ok shows such a function for eta = 2^-24. np.random.rand takes the 2^53 multiples of 2^-53 with equal probability; permutations are uniform. The sum total_prob is exact, it is only compared with 0."
  },
  {
   "property": "C74",
   "status": "proved",
   "theorems": [
    "TreeCat.floatEstimateTree_near",
    "TreeCat.floatEstimateTree_exact",
    "TreeCat.floatEstimateTree_float32",
    "TreeCat.floatTreeWeights_collide",
    "TreeCat.floatEstimateTree_not_max"
   ],
   "note": "Every operation on the weights is rounded; minimum_spanning_tree is any function that returns a minimum spanning tree of the float weights it is given (MstContract, exact comparison of totals). No overflow."
  },
  {
   "property": "C75",
   "status": "proved",
   "theorems": [
    "TreeCat.floatEdgeLogits_near",
    "TreeCat.edgeValue_coarse",
    "TreeCat.floatEdgeLogits_coarse",
    "TreeCat.sumAbsOk_foldl",
    "TreeCat.exists_gammalnOk",
    "TreeCat.exists_uniform"
   ],
   "note": "gammaln has error gamma relative to 1 + |result| (GammalnOk) and np.sum the bound of every order of summation (SumAbsOk); sumAbsOk_foldl and exists_gammalnOk show that these can be met. exists_uniform: states as in the last clause exist for every N. No overflow."
  },
  {
   "property": "C76",
   "status": "proved",
   "theorems": [
    "TreeCat.floatTrainerEstimateTree_near",
    "TreeCat.floatTrainerSampleTree_near",
    "TreeCat.treeStep_perturb",
    "TreeCat.softmax_distance"
   ],
   "note": "Assumptions of C73, C74 and C75; the example beside the theorems meets them all. No overflow."
  },
  {
   "property": "C77",
   "status": "proved",
   "theorems": [
    "TreeCat.floatAddRow_law",
    "TreeCat.floatAddRow_law_pow",
    "TreeCat.floatSampleRow_near",
    "TreeCat.floatAddRow_hub",
    "TreeCat.floatAddRow_clear",
    "TreeCat.floatAddRow_law_few"
   ],
   "note": "floatAddRow_law compares the average over all draws of floatAddRow with the likelihood of C19; floatAddRow_law_pow is the case of a power of two clusters, where edge_probs needs no assumption. The absence of underflow is a decidable check (Spec.rowClear) of the inward messages. floatAddRow_clear shows that it holds in every reachable state for tables with few features, rows and clusters (Spec.FewBits); floatAddRow_law_few is the law there. two_clear and the example after it show a reachable state that meets every hypothesis. floatAddRow_hub shows that the check is needed: a reachable state with categorical data that meets all other hypotheses, where a class of probability at least 0.999 is never drawn."
  },
  {
   "property": "C78",
   "status": "proved",
   "theorems": [
    "TreeCat.dataServer_tree",
    "TreeCat.dataServer_sampleTrees",
    "TreeCat.featureDensity_spec",
    "TreeCat.dataServer_latentPerplexity",
    "TreeCat.dataServer_observedPerplexity",
    "TreeCat.dataServer_latentCorrelation"
   ],
   "note": "Over the reals (trees and densities over any ordered field). Observed perplexity is of one observation because the code replaces the counts by ones, see C28."
  },
  {
   "property": "C79",
   "status": "proved",
   "theorems": [
    "TreeCat.floatSample_near",
    "TreeCat.floatSample_hub",
    "TreeCat.floatSample_near_few",
    "TreeCat.floatSample_clear"
   ],
   "note": "float32 with round to nearest and every operation rounded; hypotheses ServeOpsNear on np.dot, np.sum and powers, met by numpyServe_near; that no message underflows (Spec.sampleClear) is a condition on the run that is checked by executing the model. floatSample_hub shows that the absence of underflow cannot be dropped."
  },
  {
   "property": "C80",
   "status": "proved",
   "theorems": [
    "TreeCat.floatActions_near",
    "TreeCat.floatActions_ok",
    "TreeCat.floatEpochs_posterior",
    "TreeCat.floatActions_near_few",
    "TreeCat.floatEpochs_posterior_few"
   ],
   "note": "For M a power of two, categorical rows, fewer than 2^14 rows and V^2 <= 2^25. U is the expected number of additions of a row during which an intermediate value falls below 2^-85 (Spec.rowClear); it is zero for tables with few features, rows and clusters (Spec.FewBits). gammaln, exp and sums in float32 are assumed accurate as in C76."
  },
  {
   "property": "C81",
   "status": "proved",
   "theorems": [
    "TreeCat.floatTrain_ok",
    "TreeCat.floatTrain_near",
    "TreeCat.floatTrain_posterior",
    "TreeCat.floatTrain_near_few",
    "TreeCat.floatTrain_posterior_few"
   ],
   "note": "The law of the final tree itself is compared only if it is sampled (learning_estimate_tree off): an estimated tree can jump when two trees have nearly the same total, so for it floatTrain_ok bounds the total instead. Assumptions on gammaln, exp and sums as in C76; U is a sum over the shuffles (trainUnclear) and is zero under Spec.FewBits."
  },
  {
   "property": "C82",
   "status": "proved",
   "theorems": [
    "TreeCat.floatEnsembleLogprob_near",
    "TreeCat.floatLogsumexp_near",
    "TreeCat.floatEnsembleLogprob_near_few"
   ],
   "note": "numpy's float32 exp enters as a function with an absolute error bound on non-positive arguments; float32 log as in C70. Underflow of a member's message is excluded as in C70."
  },
  {
   "property": "C83",
   "status": "proved",
   "theorems": [
    "TreeCat.floatLatentCorrelation_near",
    "TreeCat.floatCorr_messages",
    "TreeCat.floatCorrelation_near",
    "TreeCat.latentCorrelation_nan",
    "TreeCat.nanProbs_info"
   ],
   "note": "The nan clause is latentCorrelation_nan, for logarithms that round a value with relative error at most 2^-56."
  },
  {
   "property": "C84",
   "status": "proved",
   "theorems": [
    "TreeCat.floatLatentPerplexity_near",
    "TreeCat.floatObservedPerplexity_near",
    "TreeCat.floatEntropy_near"
   ],
   "note": "observed_perplexity ignores the counts it is given; see C20 for the exact value."
  },
  {
   "property": "C85",
   "status": "proved",
   "theorems": [
    "TreeCat.train_floatServe",
    "TreeCat.trainedModel_few",
    "TreeCat.fewRows_hundred",
    "TreeCat.train_floatMarginals",
    "TreeCat.trainEnsemble_floatLogprob"
   ],
   "note": "Training is the exact arithmetic model; its outcomes are all that the draws permit, so the statement covers every model training can return. fewRows_hundred instantiates the limits."
  },
  {
   "property": "C86",
   "status": "proved",
   "theorems": [
    "TreeCat.runWithTool_spec",
    "TreeCat.profileTrain_runs",
    "TreeCat.profileServe_runs"
   ],
   "note": "In exact arithmetic, under the assumption that the drawn counts fit into an int8 cell. The launched program is modelled by what it computes; profile.eval is validate.train and validate.eval (C49, C50). The server is modelled for the number of clusters of the generated model, which is the default."
  },
  {
   "property": "C87",
   "status": "proved",
   "theorems": [
    "TreeCat.seededEnsemble_spec",
    "TreeCat.seededRun_draws",
    "TreeCat.seededRun_seeded",
    "TreeCat.trainEnsembleOn_eq",
    "TreeCat.parallelMapOn_eq",
    "TreeCat.seededEnsemble_overlap",
    "TreeCat.seededEnsemble_badSeed",
    "TreeCat.choose_run"
   ],
   "note": "Generators are modelled by their outputs and states; a program with random choices is run with them (RunOn) and simulated by the reading with arbitrary choices (GenSim). seededRun_draws discharges the hypothesis Draws of the theorems on trained ensembles."
  },
  {
   "property": "C88",
   "status": "proved",
   "theorems": [
    "TreeCat.withTempdir_traceless",
    "TreeCat.withTempdir_removed",
    "TreeCat.withTempdir_gone",
    "TreeCat.inTempdir_traceless",
    "TreeCat.inTempdir_error",
    "TreeCat.makeSeed_spec",
    "TreeCat.makeSeed_accepted",
    "TreeCat.makeSeed_unwritable"
   ],
   "note": "tempfile.mkdtemp, rmtree, chdir are modelled by their contracts; permissions are not. Finding: fingerprint overwrites /tmp/v1.json."
  },
  {
   "property": "C89",
   "status": "partial",
   "theorems": [
    "TreeCat.npPrintoptions_restores",
    "TreeCat.npPrintoptions_raises",
    "TreeCat.npPrintoptions_leaks"
   ],
   "note": "True when the body returns. False when it raises: the generator has no try/finally, so the options stay as the body left them (npPrintoptions_leaks shows that every changed option leaks)."
  },
  {
   "property": "C90",
   "status": "proved",
   "theorems": [
    "TreeCat.ensemble_sampleOn",
    "TreeCat.ensemble_sampleTreesOn",
    "TreeCat.multinomialOk_memberProbs",
    "TreeCat.memberProbs_share",
    "TreeCat.ensemble_sampleOn_numpyOnly",
    "TreeCat.seeded_sample",
    "TreeCat.ensemble_sampleBy_exact",
    "TreeCat.ensemble_sampleBy_near",
    "TreeCat.ensemble_sampleTreesBy_mixture",
    "TreeCat.ensemble_sampleTreesBy_near",
    "TreeCat.ensemble_sampleTreesBy_each"
   ],
   "note": "Contract of np.random.multinomial: the numbers add up (Splits); its check of the probabilities is modelled (compensated sum in double precision). For the law (ensemble_sampleBy_near: within N / 2^24 of independent draws from the uniform mixture) it counts independent draws. The probabilities within a member are exact; C65 and C72 treat their rounding."
  },
  {
   "property": "C91",
   "status": "proved",
   "theorems": [
    "TreeCat.joinCsvs_spec",
    "TreeCat.joinCsvs_again",
    "TreeCat.joinCsvs_needs"
   ],
   "note": "Files are tables of fields; the text of fields is C46. pandas' treatment of repeated or empty names and of lines longer than the header is outside the hypotheses."
  },
  {
   "property": "C92",
   "status": "proved",
   "theorems": [
    "TreeCat.sampleTreeStats_fst",
    "TreeCat.sampleTreeStats_spec",
    "TreeCat.logProfilingStats_spec"
   ],
   "note": "The text of the lines of the report (column widths, decimals) is not modelled."
  },
  {
   "property": "C93",
   "status": "proved",
   "theorems": [
    "TreeCat.validation_runs",
    "TreeCat.validation_empty",
    "TreeCat.profileEval_runs",
    "TreeCat.profileEval_empty"
   ],
   "note": "Over the reals. The pools and processes are the sequential ones of C49; the way to train is any function whose value is an outcome of training and depends on the config as a dict."
  },
  {
   "property": "C94",
   "status": "proved",
   "theorems": [
    "TreeCat.sampleTreeInf_least",
    "TreeCat.sampleTreeInf_invariant",
    "TreeCat.sampleTreeInf_finite",
    "TreeCat.estimateTreeInf_max",
    "TreeCat.treeWeightsInf_spec",
    "TreeCat.estimateTreeInf_finite"
   ],
   "note": "sampleTreeInf_least: spanning tree, least number of forbidden edges, counter, for every draw of sample_from_probs (reading Sampled). sampleTreeInf_invariant: stationarity of the restricted posterior. sampleTreeInf_finite: without -inf it is sampleTree, for all arguments. estimateTreeInf_max: under scipy's contract (MstContract, MstForest; satisfiable by exists_mstForest), the best allowed tree or AssertionError. treeWeightsInf_spec: the minimum in estimate_tree is always finite, so no nan."
  },
  {
   "property": "C95",
   "status": "proved",
   "theorems": [
    "TreeCat.trainInf_spec",
    "TreeCat.trainInf_finite"
   ],
   "note": "The counter of infeasible proposals is left out of the training program (it is in C94). Row assignments and shuffles are arbitrary; the indices in sample_tree are those that sample_from_probs can return."
  },
  {
   "property": "C96",
   "status": "proved",
   "theorems": [
    "TreeCat.serverInf_init",
    "TreeCat.serverInf_sampleTrees",
    "TreeCat.ensembleInf_init",
    "TreeCat.ensembleInf_sampleTrees",
    "TreeCat.trainInf_served",
    "TreeCat.serverInf_init_finite",
    "TreeCat.serverInf_sampleTrees_finite",
    "TreeCat.ensembleInf_init_finite",
    "TreeCat.ensembleInf_sampleTrees_finite"
   ],
   "note": "Only the parts of the servers that use edge logits are in this model. Numbers of samples per member and shuffles are arbitrary; the indices in sample_tree are those that sample_from_probs can return. Without -inf these are the servers of the other properties."
  },
  {
   "property": "C97",
   "status": "proved",
   "theorems": [
    "TreeCat.serverInf_sampleTrees_converges",
    "TreeCat.ensembleInf_sampleTrees_mixture",
    "TreeCat.ensembleInf_sampleTrees_each"
   ],
   "note": "Exact arithmetic with the exact exponential, and exact draws from the probabilities, as in C56. Only the parts of the servers that use edge logits are in this model."
  },
  {
   "property": "C98",
   "status": "proved",
   "theorems": [
    "TreeCat.fullScanInf_converges",
    "TreeCat.KernA.tree",
    "TreeCat.KernA.fullScan",
    "TreeCat.trainInf_converges",
    "TreeCat.Within.sampleTreeInf",
    "TreeCat.sampleTreeInf_state_avg",
    "TreeCat.trainInf_tendsto",
    "TreeCat.trainInf_tree_tendsto"
   ],
   "note": "fullScanInf is the body of an epoch of the annealing schedule after all rows are added, with a prior in WithBot ℝ (bottom is -inf). The limit is posterior t (finiteLogits prior) restricted to the finite set S of the canonical spanning trees without forbidden edges; finiteLogits replaces -inf by 0, which does not matter for these trees. Exact real arithmetic. trainInf_converges: a whole run of train from a new trainer, through annealing, at least one full epoch and the final estimate, with the bound rho^(n-1); the first tree may have forbidden edges."
  },
  {
   "property": "C99",
   "status": "proved",
   "theorems": [
    "TreeCat.trainSeries_fst",
    "TreeCat.trainSeries_spec"
   ],
   "note": "trainSeries_fst holds for every lawful monad of draws; trainSeries_spec for every outcome of the draws, with the number of steps of the schedule bounded as in C16."
  }
 ]
}