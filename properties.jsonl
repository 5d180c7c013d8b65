{"id": "C01", "title": "Complete-graph edge numbering is a bijection", "statement": "For every V, make_complete_graph(V) lists each unordered pair v1<v2<V exactly once, its k-th column is (k,v1,v2), it has V(V-1)/2 columns, and find_complete_edge(v1,v2) (in either argument order) is exactly the column index of that pair, with every intermediate fitting in int32 for V<=32768.", "quantifier": "all V and all pairs of distinct vertices below V", "why_tests_cant": "The unit test checks five literal grids; the numbering must agree for every pair at every size, since edge_logits, tree_prior and sample_tree index each other through it.", "anchors": ["treecat/structure.py:find_complete_edge", "treecat/structure.py:make_complete_graph"]}
{"id": "C02", "title": "set_edges / get_edges canonicalise the tree", "statement": "Building a TreeStructure from a list of edges depends only on the multiset of unordered pairs: any reordering of the list or flipping of pairs gives an equal TreeStructure, get_edges returns the same unordered pairs, each as (small,large), in increasing order, with edge ids 0..E-1; setting get_edges again changes nothing. A wrong number of edges is rejected with AssertionError.", "quantifier": "all edge lists, all permutations and flips of them", "why_tests_cant": "Ranges over all permutations of all edge lists.", "anchors": ["treecat/structure.py:TreeStructure", "treecat/structure.py:make_tree"]}
{"id": "C03", "title": "find_center_of_tree returns a graph centre", "statement": "For every tree, find_center_of_tree terminates without raising and returns a vertex whose eccentricity (largest distance to any vertex) is minimal.", "quantifier": "all trees of all sizes", "why_tests_cant": "Nine example trees are tested; optimality quantifies over all trees and all competing vertices.", "anchors": ["treecat/structure.py:find_center_of_tree"]}
{"id": "C04", "title": "Propagation programs are complete and correctly ordered", "statement": "For every tree and every root (or the default centre), make_propagation_program terminates and returns exactly V+E+1+E+V instructions: one UP and one DOWN per vertex, one IN and one OUT per tree edge carrying that edge's id, one ROOT. Every UP precedes every IN reading or writing the vertex; a child's whole inward work precedes the IN that reads it; ROOT follows all inward work; a vertex's OUT and DOWN follow its parent's DOWN; all operands are in range.", "quantifier": "all trees, all roots", "why_tests_cant": "The message-passing virtual machines (train, sample, logprob, marginals, correlation) are only correct if this order holds for every tree shape.", "anchors": ["treecat/structure.py:make_propagation_program"]}
{"id": "C05", "title": "sample_tree always returns a spanning tree", "statement": "Given any spanning tree on V vertices and any finite edge logits, for every sequence of random outcomes sample_tree terminates and returns a sorted list of V-1 distinct (small,large) pairs forming a spanning tree of the same V vertices.", "quantifier": "all V, all trees, all logits, all scan permutations, all random draws", "why_tests_cant": "Random outcomes and tree shapes cannot be enumerated; a single bad outcome corrupts every later iteration of the chain.", "anchors": ["treecat/structure.py:sample_tree", "treecat/structure.py:jit_remove_edge", "treecat/structure.py:jit_add_edge", "treecat/structure.py:find_valid_edges"]}
{"id": "C06", "title": "The jit-compiled tree sampler never indexes out of bounds", "statement": "In sample_tree every read and write to the fixed-size scratch arrays (neighbor sets, DFS stack, component flags, valid-edge buffer) is inside the allocated array, for every tree and every random outcome; set operations behave as mathematical set add / remove.", "quantifier": "all trees with V>=2 vertices and all random outcomes", "why_tests_cant": "numba nopython code performs no bounds checks, so an overflow silently corrupts memory on rare shapes.", "anchors": ["treecat/structure.py:jit_set_add", "treecat/structure.py:jit_set_pop", "treecat/structure.py:jit_set_remove", "treecat/structure.py:jit_remove_edge"]}
{"id": "C07", "title": "sample_tree is a correct Gibbs sampler for the tree posterior", "statement": "One call of sample_tree leaves invariant the distribution over spanning trees proportional to exp(sum of edge_logits over the tree's edges): moving one randomly chosen edge picks among exactly the edges reconnecting the two components, with probability proportional to exp(edge_logit).", "quantifier": "all V, all finite logits, all trees", "why_tests_cant": "The goodness-of-fit test only covers V<=6 at finite sample sizes; invariance is an identity over all spanning trees.", "anchors": ["treecat/structure.py:sample_tree", "treecat/structure.py:find_valid_edges"]}
{"id": "C08", "title": "estimate_tree maximises total edge logit", "statement": "For every V and logits, estimate_tree returns a sorted list of V-1 pairs forming a spanning tree whose summed logit is at least that of every other spanning tree, provided scipy's minimum_spanning_tree meets its documented contract (nonzero entries are edges); no candidate edge is ever handed to it as a zero (missing) entry.", "quantifier": "all V, all finite logits, all spanning trees", "why_tests_cant": "Exhaustive comparison is only tested for V<=5.", "anchors": ["treecat/structure.py:estimate_tree", "treecat/structure.py:triangular_to_square"]}
{"id": "C09", "title": "triangular_to_square is the symmetric unpacking", "statement": "For every V>=1 and every packed array over the complete graph, triangular_to_square returns the V x V symmetric matrix with zero diagonal whose (v1,v2) entry is the packed value at find_complete_edge(v1,v2); the size recovered from the packed length is exactly V, and lengths that are not triangular numbers are rejected.", "quantifier": "all V and packed arrays", "why_tests_cant": "Ranges over all sizes and values.", "anchors": ["treecat/structure.py:triangular_to_square"]}
{"id": "C10", "title": "print_tree prints every feature once, indented by depth", "statement": "For every tree, feature name list and root name, print_tree terminates with exactly one line per feature; the first line is the root; each feature's indentation is two spaces per edge on its path to the root, and each non-root line's parent is the nearest preceding line with smaller indentation.", "quantifier": "all trees, all roots", "why_tests_cant": "Tests only count lines for tiny trees.", "anchors": ["treecat/structure.py:print_tree"]}
{"id": "C11", "title": "order_vertices returns a permutation and its inverse", "statement": "For every tree and every set-iteration order, order_vertices terminates and returns (order, order_inv) that are mutually inverse permutations of the vertices, in which every subtree hanging below the centre occupies a contiguous interval. Within that interval the subtrees below its topmost vertex stand at its two sides, at either side the smaller ones nearer, each turned so that its own topmost vertex is in the inner half, and the two sides differ in size by at most one subtree.", "quantifier": "all trees, all iteration orders of hash sets", "why_tests_cant": "Set iteration order and tree shape are unbounded.", "anchors": ["treecat/structure.py:order_vertices"]}
{"id": "C12", "title": "sample_from_probs draws from the normalised weights", "statement": "For every nonempty nonnegative weight vector with positive total, sample_from_probs (and each row of sample_from_probs2) returns an in-range index, never an index of weight zero, and index i is returned for a set of uniform draws of measure exactly p_i / sum(p).", "quantifier": "all weight vectors, all uniform draws in [0,1)", "why_tests_cant": "Goodness-of-fit tests only sample; never returning a zero-weight index must hold for every draw.", "anchors": ["treecat/util.py:sample_from_probs", "treecat/util.py:sample_from_probs2"]}
{"id": "C13", "title": "quantize_from_probs2 is the L1-optimal quantisation", "statement": "For every positive-total nonnegative row and every resolution, quantize_from_probs2 returns nonnegative integers summing exactly to the resolution, each within one of its target resolution*p_i/sum(p), and no other integer vector with that sum is closer to the target in L1 distance.", "quantifier": "all rows, all resolutions, all competing integer vectors", "why_tests_cant": "The test compares against a few combinations at tiny sizes.", "anchors": ["treecat/util.py:quantize_from_probs2"]}
{"id": "C14", "title": "Ragged index helpers agree with the block layout", "statement": "make_ragged_index gives V+1 nondecreasing offsets whose v-th gap is the v-th column's width; make_ragged_mask copies mask[v] to exactly the positions of block v; count_observations returns each block's sum (when it fits int8) and guess_counts the maximum over rows.", "quantifier": "all column widths, masks and data", "why_tests_cant": "Ranges over all shapes and contents.", "anchors": ["treecat/util.py:make_ragged_index", "treecat/util.py:make_ragged_mask", "treecat/util.py:count_observations", "treecat/util.py:guess_counts"]}
{"id": "C15", "title": "parallel_map is map", "statement": "parallel_map(f, args) returns [f(a) for a in args] in argument order, whatever the thread count, pool reuse, chunking and completion order of workers.", "quantifier": "all argument lists, all worker schedules", "why_tests_cant": "Schedules cannot be enumerated by a test.", "anchors": ["treecat/util.py:parallel_map"]}
{"id": "C16", "title": "Annealing schedules are valid and terminate", "statement": "For every number of rows, every epochs>=1, every sample_tree_rate>=1 and every shuffle, make_annealing_schedule terminates; it never adds a row already assigned, never removes a row not assigned, never samples a tree with no rows assigned, only names rows in range, and ends with every row assigned. With epochs=1 it adds each row exactly once and removes none. Otherwise the number of add actions is that of the linear schedule.", "quantifier": "all num_rows, epochs, rates, shuffles", "why_tests_cant": "Prefixes of the schedule are unboundedly long; the test runs one configuration.", "anchors": ["treecat/training.py:make_annealing_schedule"]}
{"id": "C17", "title": "Trainer sufficient statistics always match the assignments", "statement": "After any sequence of successful add_row, remove_row and set_edges calls with any random outcomes, vert_ss, edge_ss, feat_ss, meas_ss and the cached edge probabilities equal the values recomputed from scratch from the assignments of exactly the rows currently added; assignments are in range(M). add_row of an added row and remove_row of an absent row raise and change nothing.", "quantifier": "all operation histories, all random outcomes, all tables", "why_tests_cant": "Incremental statistics drift only on specific histories; histories are unbounded.", "anchors": ["treecat/training.py:TreeCatTrainer.add_row", "treecat/training.py:TreeCatTrainer.remove_row", "treecat/training.py:TreeCatTrainer.set_edges", "treecat/training.py:treecat_add_row", "treecat/training.py:treecat_remove_row", "treecat/training.py:count_pairs"]}
{"id": "C18", "title": "train() always completes and returns a consistent model", "statement": "For every table, prior, valid config and random outcomes, TreeCatTrainer.train never trips one of its assertions, ends with all rows added, and returns a spanning tree plus statistics satisfying all marginal identities (vertex rows sum to N, edge marginals equal vertex counts, feature blocks sum to the data and to meas_ss).", "quantifier": "all tables, configs, random outcomes", "why_tests_cant": "Training is a long random history; tests run six tiny sizes.", "anchors": ["treecat/training.py:TreeTrainer.train", "treecat/training.py:TreeCatTrainer.train"]}
{"id": "C19", "title": "Row resampling is exact Gibbs for logprob", "statement": "With every other row added, add_row(r) assigns row r's latent vector z with probability exactly proportional to exp(logprob()) of the resulting state, jointly over all features.", "quantifier": "all states, tables, trees, cluster counts", "why_tests_cant": "An identity between a dynamic program and a product of gamma functions over M^V assignments.", "anchors": ["treecat/training.py:treecat_add_row", "treecat/training.py:treecat_add_cell", "treecat/training.py:TreeCatTrainer.logprob"]}
{"id": "C20", "title": "Edge logits decompose the model's log probability", "statement": "compute_edge_logits depends only on the rows currently in the subsample, and for any two spanning trees over the same assignments the difference in logprob() equals the difference in total edge logit (less tree prior), so that sampling trees by edge logits targets the joint posterior.", "quantifier": "all states, all pairs of trees", "why_tests_cant": "Needs all subsamples, including those whose size coincides with other dimensions.", "anchors": ["treecat/training.py:TreeCatTrainer.compute_edge_logits", "treecat/training.py:treecat_compute_edge_logit", "treecat/training.py:TreeCatTrainer.logprob"]}
{"id": "C21", "title": "Ensembles are independent seeded runs", "statement": "train_ensemble returns exactly model_ensemble_size models, the i-th being train_model on the same table and prior with seed config.seed+i and otherwise the same config, in order; the caller's config is unchanged.", "quantifier": "all configs, tables, worker schedules", "why_tests_cant": "Order/aliasing must hold for all schedules.", "anchors": ["treecat/training.py:train_ensemble"]}
{"id": "C22", "title": "server.logprob is the exact marginal likelihood", "statement": "For every model and every row of counts, exp(server.logprob(row)) equals the sum over all M^V latent assignments of the tree-structured joint times the feature conditionals, independent of the root the propagation program uses and of the rescaling done for stability.", "quantifier": "all models with positive parameters, all rows, all trees and roots", "why_tests_cant": "The sum has M^V terms and must agree for all models.", "anchors": ["treecat/serving.py:TreeCatServer.logprob", "treecat/serving.py:TreeCatServer.__init__"]}
{"id": "C23", "title": "server.logprob is normalised and marginalises missing data", "statement": "For every model with consistent statistics the probabilities of all fully observed categorical rows sum to 1, an all-missing row has log probability 0, and leaving a feature missing gives the sum over its values; likewise for conditional probability logprob(row+evidence)-logprob(evidence).", "quantifier": "all consistent models, all evidence rows, all subsets of missing features", "why_tests_cant": "Test sums over a few tiny random models with tolerance 1e-5.", "anchors": ["treecat/serving.py:TreeCatServer.logprob", "treecat/serving.py:TreeCatServer.__init__"]}
{"id": "C24", "title": "server.sample draws from the exact conditional distribution", "statement": "For every model and evidence row, the latent vectors drawn by server.sample have exactly the posterior distribution given the evidence, and given the latent vector each observation of feature v is drawn independently from the conditional feat_cond[v, z_v].", "quantifier": "all models, evidence rows, roots", "why_tests_cant": "Goodness of fit tests are statistical, small and flaky (some are xfail).", "anchors": ["treecat/serving.py:TreeCatServer.sample"]}
{"id": "C25", "title": "server.sample honours the requested counts", "statement": "Every row returned by server.sample has nonnegative entries and block v summing exactly to counts[v], for every random outcome; N rows are returned; features with count 0 are all zero.", "quantifier": "all counts, evidence, random outcomes", "why_tests_cant": "Random outcomes unbounded.", "anchors": ["treecat/serving.py:TreeCatServer.sample", "treecat/serving.py:EnsembleServer.sample"]}
{"id": "C26", "title": "server.marginals are the conditional marginals", "statement": "Every block of server.marginals(row) is a probability vector and equals the model's exact conditional distribution of that feature given the row.", "quantifier": "all models, rows, features, trees", "why_tests_cant": "Test only checks that blocks sum to one; exactness quantifies over all trees and evidence.", "anchors": ["treecat/serving.py:TreeCatServer.marginals"]}
{"id": "C27", "title": "server.median returns valid L1-optimal quantised rows", "statement": "server.median(counts, data) has the shape of data, each block is nonnegative and sums to counts[v], and is an L1-closest such vector to counts[v] times the marginals.", "quantifier": "all models, data, counts", "why_tests_cant": "All competing integer vectors.", "anchors": ["treecat/serving.py:ServerBase.median"]}
{"id": "C28", "title": "Perplexities are in their documented range", "statement": "latent_perplexity is in [1, M] and observed_perplexity in [1, number of categories] for every model (for every requested counts it is that of the requested multinomial), and ensemble perplexities are the mean of the members' and stay in range.", "quantifier": "all models", "why_tests_cant": "Real-analytic inequality over all distributions.", "anchors": ["treecat/serving.py:TreeCatServer.latent_perplexity", "treecat/serving.py:TreeCatServer.observed_perplexity", "treecat/serving.py:EnsembleServer.latent_perplexity", "treecat/serving.py:multinomial_entropy"]}
{"id": "C29", "title": "latent_correlation is a symmetric correlation matrix", "statement": "For every consistent model latent_correlation computes sqrt(1-exp(-2 I)) of the exact pairwise joint of every pair of latent variables, is symmetric, has entries in [0,1), and each diagonal entry is the largest in its row and column.", "quantifier": "all consistent models, all vertex pairs", "why_tests_cant": "Real-analytic, over all trees; V re-rooted programs.", "anchors": ["treecat/serving.py:TreeCatServer.latent_correlation", "treecat/serving.py:correlation"]}
{"id": "C30", "title": "Ensemble probability is the average of member probabilities", "statement": "exp(EnsembleServer.logprob(row)) is the arithmetic mean of the members' probabilities and hence is normalised whenever the members' are; ensemble edge_logits, perplexity and correlation are member means.", "quantifier": "all ensembles, rows", "why_tests_cant": "All sizes and values.", "anchors": ["treecat/serving.py:EnsembleServer"]}
{"id": "C31", "title": "Ensemble sampling returns exactly N valid samples", "statement": "EnsembleServer.sample(N) returns exactly N rows, and EnsembleServer.sample_tree(N) exactly N spanning trees, each produced by some member, for every random split and shuffle.", "quantifier": "all N, ensembles, random outcomes", "why_tests_cant": "Random splits are unbounded.", "anchors": ["treecat/serving.py:EnsembleServer.sample", "treecat/serving.py:EnsembleServer.sample_tree", "treecat/serving.py:TreeCatServer.sample_tree"]}
{"id": "C32", "title": "DataServer.sample always yields schema-legal rows", "statement": "For a dataset imported under a schema whose ordinal ranges fit int8, DataServer.sample never trips export_rows' assertions for any random outcome, and every returned value is one of the schema's categorical values or an int within the ordinal range.", "quantifier": "all schemas, datasets, models, random outcomes", "why_tests_cant": "End-to-end over all random outcomes.", "anchors": ["treecat/serving.py:DataServer.sample", "treecat/serving.py:DataServer.__init__", "treecat/format.py:export_rows"]}
{"id": "C33", "title": "DataServer evidence queries return conditional answers", "statement": "DataServer.logprob(rows, evidence) returns log P(rows | evidence) and DataServer.median(evidence) returns a full row, when evidence is a sparse dict as documented.", "quantifier": "all rows and evidence dicts", "why_tests_cant": "Only an all-inputs argument shows that no documented input succeeds.", "anchors": ["treecat/serving.py:DataServer.logprob", "treecat/serving.py:DataServer.median"]}
{"id": "C34", "title": "import_rows and export_rows round-trip", "statement": "For every schema whose ordinal ranges fit int8, exporting the import of any rows returns exactly the valid cells of those rows (unknown names and invalid values dropped, values normalised), and importing an export gives back the same array.", "quantifier": "all schemas, all sparse rows, all imported arrays", "why_tests_cant": "Round trip over unbounded values.", "anchors": ["treecat/format.py:import_rows", "treecat/format.py:export_rows"]}
{"id": "C35", "title": "CSV loading agrees with row import", "statement": "load_data on a CSV with distinct header names gives, row by row, the same array as import_rows on the dict of its normalised nonempty cells; one output row per CSV row; unknown columns and values are ignored; every categorical block is zero or one-hot and every ordinal block is zero or sums to max-min.", "quantifier": "all csv contents and schemas", "why_tests_cant": "All contents.", "anchors": ["treecat/format.py:load_data", "treecat/format.py:import_rows"]}
{"id": "C36", "title": "guess_schema never leaks singleton values and is well-formed", "statement": "Every value written to values.csv was observed at least twice in that feature, at most 20 values per feature are written, in order of decreasing count then value, with exact counts; totals, unique and singleton counts in types.csv are exact; types are '', 'ordinal' or 'categorical' by the documented rule; each feature's source column lists exactly the files containing it.", "quantifier": "all csv contents, all numbers of files", "why_tests_cant": "A privacy guarantee over all inputs.", "anchors": ["treecat/format.py:guess_schema", "treecat/format.py:guess_feature_type"]}
{"id": "C37", "title": "A guessed schema can always be loaded", "statement": "load_schema accepts the unmodified output of guess_schema on any CSVs whenever at least one feature has a type, and every guessed ordinal range lies within [0,20] so imported data never overflows int8.", "quantifier": "all csv contents", "why_tests_cant": "All contents.", "anchors": ["treecat/format.py:guess_schema", "treecat/format.py:load_schema"]}
{"id": "C38", "title": "load_schema builds consistent indices and the specified prior", "statement": "In every schema load_schema returns, ragged_index starts at 0 and increases by the number of categories (or 2 for ordinals) of each feature in order, feature_index is its inverse, untyped features are dropped; every group row in groups.csv sets tree_prior of each source-target edge to the group's logit and leaves other edges 0.", "quantifier": "all schema csv contents", "why_tests_cant": "All contents.", "anchors": ["treecat/format.py:load_schema"]}
{"id": "C39", "title": "normalize_string is canonical", "statement": "normalize_string is idempotent, its result has no leading, trailing or repeated whitespace and no case variation, and maps the NA strings to the empty string.", "quantifier": "all strings", "why_tests_cant": "All strings.", "anchors": ["treecat/format.py:normalize_string"]}
{"id": "C40", "title": "Outer join keeps every key and prefers leftmost values", "statement": "pd_outer_join of frames with distinct keys has exactly the union of keys and the union of columns, and each cell is the value from the leftmost frame in which that cell is present.", "quantifier": "all lists of frames", "why_tests_cant": "All frames.", "anchors": ["treecat/format.py:pd_outer_join"]}
{"id": "C41", "title": "Config strings round-trip and never collide", "statement": "deserialize_config(serialize_config(c)) equals c for every config, and two different configs never serialise to the same string (so tuning runs never overwrite each other's model files).", "quantifier": "all integer config values", "why_tests_cant": "Ranges over all integers.", "anchors": ["treecat/config.py:serialize_config", "treecat/config.py:deserialize_config"]}
{"id": "C42", "title": "make_config overrides exactly the given options", "statement": "make_config(**options) returns the defaults with exactly the given options overridden (converted to int), rejects any unknown option with ValueError, and never changes DEFAULT_CONFIG.", "quantifier": "all option dicts, all call histories", "why_tests_cant": "All histories.", "anchors": ["treecat/config.py:make_config"]}
{"id": "C43", "title": "Cross-validation folds partition the cells", "statement": "For every dataset shape and number of parts, the masks split_data returns for partid 0..num_parts-1 are disjoint, cover every cell, are constant on each feature block, and agree between training and evaluation; training and validation data add up to the data.", "quantifier": "all shapes, num_parts, random outcomes", "why_tests_cant": "All shapes and RNG outcomes.", "anchors": ["treecat/validate.py:split_data", "treecat/validate.py:train_task", "treecat/validate.py:process_eval_task"]}
{"id": "C44", "title": "read_param_csv expands each parameter row into all folds", "statement": "read_param_csv yields, for each usable csv row in order, one config per fold 0..num_parts-1 whose options are that row's values over the command-line options, skipping comment and malformed rows; no option leaks between rows.", "quantifier": "all csv contents, options", "why_tests_cant": "All contents.", "anchors": ["treecat/validate.py:read_param_csv"]}
{"id": "C45", "title": "Ensemble sampling draws from the mixture that logprob describes", "statement": "EnsembleServer.sample without evidence draws each row from the uniform mixture of its members' sampling laws, which is the law whose log density EnsembleServer.logprob reports; with evidence it draws from the mixture conditioned on the evidence.", "quantifier": "all ensembles, sample counts, evidence", "why_tests_cant": "A statement about laws of random outcomes over all ensembles.", "anchors": ["treecat/serving.py:EnsembleServer.sample", "treecat/serving.py:EnsembleServer.logprob"]}
{"id": "C46", "title": "Csv files written by csv_writer are read back exactly", "statement": "For all rows of fields, csv_reader yields from the text that csv_writer makes of them exactly the same rows; reading any text succeeds.", "quantifier": "all rows, all texts", "why_tests_cant": "All strings including quotes, commas and line ends.", "anchors": ["treecat/format.py:csv_reader", "treecat/format.py:csv_writer"]}
{"id": "C47", "title": "import_data builds the table from csv files", "statement": "For csv files with distinct column names and at least one row each, import_data with a loadable schema of positive block widths and int8 ranges returns a table whose rows are, file by file and row by row, the imported valid cells; in particular guess_schema followed by import_data on the same files succeeds whenever some column gets a type.", "quantifier": "all csv texts and schemas", "why_tests_cant": "All file contents.", "anchors": ["treecat/format.py:import_data", "treecat/format.py:guess_schema"]}
{"id": "C48", "title": "feature_density is the fraction of observed cells", "statement": "DataServer.feature_density succeeds on every imported dataset of positive block widths and returns for each feature the fraction of rows in which it is observed, in [0, 1].", "quantifier": "all schemas and imported datasets", "why_tests_cant": "All datasets.", "anchors": ["treecat/serving.py:DataServer.feature_density"]}
{"id": "C49", "title": "Cross-validation evaluates each config on the model trained for it, and holds out every cell", "statement": "Training and then evaluating with the same parameter file and options evaluates, for each config, the model that was trained for that config on the data without its fold, whatever else is in the directory; and for each parameter row every cell of the data is held out by exactly one config.", "quantifier": "all parameter files, options, datasets, trainers, directories", "why_tests_cant": "All parameter files and directories; file names must never collide.", "anchors": ["treecat/validate.py:train", "treecat/validate.py:eval", "treecat/validate.py:process_train_task", "treecat/validate.py:process_eval_task", "treecat/validate.py:read_param_csv"]}
{"id": "C50", "title": "Cross-validation scores are the held-out log probability and the L1 loss on observed held-out cells", "statement": "For every valid model, int8 table of counts and fold, process_eval_task succeeds; logprob is the mean over rows of the log probability of the held-out cells given the other cells and is at most 0; l1_loss is half the L1 distance between held-out data and the median given the other cells, summed over the held-out cells that are observed as fully as any row, per column (plus 0.1); unobserved cells do not count.", "quantifier": "all valid models, tables, folds", "why_tests_cant": "All models, tables and splits.", "anchors": ["treecat/validate.py:process_eval_task"]}
{"id": "C51", "title": "A full training epoch leaves the joint posterior of tree and assignments invariant", "statement": "With all rows added, if tree and assignments are drawn from the posterior (proportional to exp(logprob()) times exp of the tree prior), then after set_edges(sample_tree()), after remove_row(r); add_row(r), and after any number of full epochs of train, no exception was raised and tree and assignments have the same joint distribution.", "quantifier": "all tables of counts, cluster counts, tree priors, rows, numbers of epochs, and all functions of the resulting state", "why_tests_cant": "An identity between sums over all M^(N V) assignments and all V^(V-2) trees.", "anchors": ["treecat/training.py:TreeTrainer.train", "treecat/training.py:TreeTrainer.sample_tree", "treecat/training.py:TreeCatTrainer.add_row", "treecat/structure.py:sample_tree"]}
{"id": "C52", "title": "Training converges to the posterior", "statement": "From every tree and assignments with all rows added, the joint distribution of tree and assignments after n full epochs of train converges geometrically, uniformly over starting points and bounded functions, to the posterior; in particular every tree and assignment can be reached in a single epoch.", "quantifier": "all tables of counts, cluster counts, tree priors and starting states", "why_tests_cant": "A limit statement about a Markov chain with M^(N V) V^(V-2) states.", "anchors": ["treecat/training.py:TreeTrainer.train", "treecat/structure.py:sample_tree"]}
{"id": "C53", "title": "Generated trees are arbitrary spanning trees", "statement": "For every number V >= 1 of columns and whatever is drawn, generate_tree(V) returns a TreeStructure whose edges are a spanning tree of V vertices in canonical order; with positive probability it returns any given spanning tree; for V = 0 it raises.", "quantifier": "all V, all logits, all random choices", "why_tests_cant": "Tests generate trees of a few sizes with one seed and do not look at their distribution.", "anchors": ["treecat/generate.py:generate_tree", "treecat/structure.py:sample_tree", "treecat/structure.py:TreeStructure"]}
{"id": "C54", "title": "Generated datasets, fake models and fake ensembles are consistent", "statement": "generate_dataset returns a table of the requested shape that holds the drawn counts; generate_fake_model returns a model whose vert_ss, edge_ss, feat_ss and meas_ss are exactly the statistics of its assignments and table, with a spanning tree, accepted by the server and with consistent probabilities; generate_fake_ensemble returns three such models of the same table with seeds 0, 1, 2.", "quantifier": "all sizes, all drawn counts below 128, all assignments and random choices", "why_tests_cant": "The fixtures that all server tests run on are themselves untested for consistency of their statistics.", "anchors": ["treecat/generate.py:generate_dataset", "treecat/generate.py:generate_fake_model", "treecat/generate.py:generate_fake_ensemble"]}
{"id": "C55", "title": "Clean datasets have the law of their tree and determine it", "statement": "For every TreeStructure with a spanning tree, generate_clean_dataset(tree, N, C) returns a table of N rows with exactly one observation of each feature; the rows are independent; each category of each feature has probability 1/C; features at tree distance d show categories i and j with probability (1/C)(s [i=j] + (1-s)/C) with s = (2/3)^d (200/201)^2. For C >= 2 the tree is therefore the unique maximum spanning tree both of the agreement probabilities and of the mutual informations of pairs of features, so the structure can be learned from pairs, as the docstring claims.", "quantifier": "all trees, all N and C, all rows and pairs of features", "why_tests_cant": "The test of structure learning uses one generated dataset per size and a statistical tolerance.", "anchors": ["treecat/generate.py:generate_clean_dataset", "treecat/serving.py:TreeCatServer.sample"]}
{"id": "C56", "title": "Sampled trees come from the posterior over trees", "statement": "The trees returned by sample_tree of a server converge in distribution to the posterior over spanning trees, with probabilities proportional to the exponential of the sum of the edge logits, geometrically in the position of the tree in the list and whatever the number of requested trees. The trees of an ensemble estimate the uniform mixture of the posteriors of its members, with a total bias that does not grow with the number of trees. Each tree of the list of an ensemble, in whatever position, is distributed like this mixture up to an error inversely proportional to the number of trees.", "quantifier": "all valid models and ensembles, all numbers of samples, all functions of a tree", "why_tests_cant": "Tests only count that the returned lists have the right length and consist of trees; bias of a Markov chain is not visible in a finite run.", "anchors": ["treecat/serving.py:TreeCatServer.sample_tree", "treecat/serving.py:EnsembleServer.sample_tree", "treecat/structure.py:sample_tree"]}
{"id": "C57", "title": "The circular plot shows the tree", "statement": "For every spanning tree of at least two features, plot_circular does not raise. Every feature has its own place on the circle, carries its own name, density and perplexities, and is moved from its place by the attractive force of its edges; all positions and all points of all chords stay in the unit disk. The chords join exactly the neighbours in the tree, and each edge of a sampled tree has one chord whose opacity is the fraction of sampled trees with that edge.", "quantifier": "all trees, names, densities, perplexities, lists of sampled trees and contractions between 0 and 1/2", "why_tests_cant": "The tests only call the function and look at nothing that is drawn.", "anchors": ["treecat/plotting.py:plot_circular", "treecat/plotting.py:contract_positions", "treecat/plotting.py:plot_chord"]}
{"id": "C58", "title": "Feature overlap and spectral layout", "statement": "plot_feature_overlap shows, for all pairs of features in a common order of rows and columns, in how many rows both are present; with method='tree' the order is that of a spanning tree with the largest total overlap; an unknown method is a ValueError. layout_tree returns eigenvectors of the graph Laplacian of the correlations: symmetric, with zero column sums, with energy equal to the weighted squared differences, and with a simple eigenvalue zero if the positive correlations connect all vertices.", "quantifier": "all tables of present cells; all symmetric correlation matrices", "why_tests_cant": "plot_feature_overlap and layout_tree are not tested.", "anchors": ["treecat/plotting.py:plot_feature_overlap", "treecat/plotting.py:layout_tree"]}
{"id": "C59", "title": "Panning is added once and keeps the drawing", "statement": "add_panning_to_svg replaces the opening line of the root element by a new root, the script and an opened group, closes the group before the line that closes the root element, and keeps every other line. A document that already has the script is refused with a ValueError.", "quantifier": "all texts with one opening and one later closing line of the root element, all scripts that name themselves", "why_tests_cant": "The function is not tested.", "anchors": ["treecat/plotting.py:add_panning_to_svg"]}
{"id": "C60", "title": "The quick start of the README works end to end", "statement": "On the contents of a disk with readable csv data files, the commands guess-schema, import-data and train and the function serve_model succeed one after the other, for every training configuration that the trainer accepts, whatever is drawn at random and however the pool schedules the training, provided guess-schema classified some feature. The server then holds exactly the valid cells of the data files and the models of the ensemble, each an outcome of training on that table; every row it samples can be scored again, with the average probability of the row over the models. pickle_load returns what pickle_dump stored exactly for paths ending in .pkz or .jz, and any other path is a ValueError.", "quantifier": "all disks, data files, paths, options, random outcomes, completion orders of the pool", "why_tests_cant": "The tests exercise each step on two small datasets with fixed seeds and never run the chain from raw csv text to served samples.", "anchors": ["treecat/__main__.py:train", "treecat/format.py:pickle_dump", "treecat/format.py:pickle_load", "treecat/format.py:guess_schema", "treecat/format.py:import_data", "treecat/serving.py:serve_model"]}
{"id": "C61", "title": "The parallel edge logits equal the sequential ones for every interleaving", "statement": "treecat_compute_edge_logits_par never accesses an array out of bounds and gives exactly the result of treecat_compute_edge_logits_seq, under every interleaving of the single steps of its iterations and for any arithmetic, including how it rounds. Before the end each entry of the shared array is zero or already final. With exact arithmetic the result is the vector of edge logits of the trainer.", "quantifier": "all numbers of rows, vertices and clusters, all assignments, all schedules of threads, all arithmetics", "why_tests_cant": "A race shows only under particular schedules; a test observes a few of them.", "anchors": ["treecat/training.py:treecat_compute_edge_logit", "treecat/training.py:treecat_compute_edge_logits_par", "treecat/training.py:treecat_compute_edge_logits_seq", "treecat/training.py:treecat_compute_edge_logits"]}
{"id": "C62", "title": "The cache of generated files returns what was asked for", "statement": "After any history of calls of generate_dataset_file, generate_model_file and clean, including calls that raise, generate_dataset_file returns the path of a dataset that generate_dataset makes for the same numbers of rows, columns and categories and a rate that rounds to the same tenth, and generate_model_file returns the path of a valid model trained on such a dataset. Calls keep all existing files, repeating a call changes nothing, and datasets and models never share a path. If all rates are multiples of one tenth, the dataset is exactly the requested one; in general a different rate with the same tenth gets the cached file of the other.", "quantifier": "all histories of calls, all numbers of rows, columns and categories, all rates, all random outcomes", "why_tests_cant": "The tests call the functions with a few fixed arguments on a shared directory and look at the path only.", "anchors": ["treecat/generate.py:generate_dataset_file", "treecat/generate.py:generate_model_file", "treecat/generate.py:clean"]}
{"id": "C63", "title": "Sampling from weights survives floating point rounding", "statement": "sample_from_probs and each row of sample_from_probs2, with every sum and product rounded as IEEE 754 prescribes, return an index in range whose weight is positive, for nonnegative float32 weights that are not all zero (and float64 weights one of which is at least 2^-1021) and every value that np.random.rand can return. Over the 2^53 equally likely draws, the probability of each of M indices differs from its normalised weight by at most (M+2)/2^23 for float32 and (M+3)/2^52 for float64 weights. Overflow, inf and nan are excluded.", "quantifier": "all lists of nonnegative floats up to 2^23 (2^52) entries, all draws, any rounding to nearest", "why_tests_cant": "The goodness of fit test draws some thousand samples from a few random weight vectors; it cannot see an event of probability 2^-53 or an error of 1e-6.", "anchors": ["treecat/util.py:sample_from_probs", "treecat/util.py:sample_from_probs2"]}
{"id": "C64", "title": "In-place updates of edge_probs in float32 keep entries near count plus prior", "statement": "edge_probs is initialised from counts and then only changed by adding or subtracting 1.0, each result rounded to float32. Whatever the order of additions and removals, as long as counts stay below 2^14 and there are at most 128 clusters, each entry is within 2^-9 of its count plus prior and at least 2^-9; with the default 32 clusters it is exactly count plus prior as long as counts stay below 2^18. Beyond these bounds this is false: going up to 2^18 and back leaves 0 instead of the prior.", "quantifier": "all histories of additions and removals, all numbers of clusters up to 128, all monotone roundings with the format's grid", "why_tests_cant": "Tests add and remove at most a few hundred rows once, and compare with a tolerance; drift depends on the largest value ever reached.", "anchors": ["treecat/training.py:treecat_add_row", "treecat/training.py:treecat_remove_row", "treecat/training.py:TreeCatTrainer"]}
{"id": "C65", "title": "Sampling one row in float32 never produces nan, overflow or a class of weight zero for categorical data", "statement": "For categorical data with fewer than 2^14 rows and at most 128 clusters, in every state that calls to the trainer can reach with float32 edge_probs, the sampling loop of treecat_add_row with every operation rounded returns; after every instruction every message is a number between 0 and 2^50; every class drawn had positive weight; and the resulting state is reachable again. Without rounding the loop is the exact loop. For ordinal features this is false: with values from 0 to 100 all weights of a row can underflow to zero, and then class 0 is drawn whatever the random number is.", "quantifier": "all categorical tables below the bounds, all histories of calls, all random numbers, any order of summation in np.dot", "why_tests_cant": "Tests use small tables of few values and never look at intermediate messages; underflow to zero or nan shows only as a biased choice.", "anchors": ["treecat/training.py:treecat_add_row", "treecat/training.py:TreeCatTrainer.add_row", "treecat/util.py:sample_from_probs"]}
{"id": "C66", "title": "Only TreeCat models can be trained", "statement": "train_model returns a model only if model_latent_dim is 0, and then it is what TreeCatTrainer returns. For every other configuration it raises, whatever the table: AssertionError for a negative dimension or for a single cluster, NotImplementedError otherwise. TreeTrainer.train called on a TreeGaussTrainer built from an array never returns a model either, for any data, config and shuffle. TreeCatTrainer.train is TreeTrainer.train with TreeCatTrainer's methods. Of its methods set_edges works: it stores the tree and its program and gives every edge the sum over the subsample of the outer products of the latent vectors of its two ends. The update for an observed cell raises in every dimension, after it has changed feat_ss.", "quantifier": "all tables, priors, configs, arrays with missing values, dimensions, shuffles", "why_tests_cant": "No test uses model_latent_dim > 0 and tests could only try single configs", "anchors": ["treecat/training.py:119-284", "treecat/training.py:641-850", "treecat/tables.py:92-111"]}
{"id": "C67", "title": "Profiling does not change a program and counts every call once", "statement": "With TREECAT_PROFILE set, any program that calls functions decorated with profile_timed, nested, recursive or raising, has the same result, exception and final state as without. Each timer then has the number of finished calls of its name, those that raised included, and the sum of the times between their entries and exits; without profiling the timers stay as they are.", "quantifier": "all terminating programs of steps, decisions, handlers and decorated calls, all clocks", "why_tests_cant": "Needs all nestings of calls and exceptions and all clock readings", "anchors": ["treecat/util.py:223-282"]}
{"id": "C68", "title": "Queries survive float32", "statement": "Let every operation of TreeCatServer be rounded to float32, with any order of summation in np.sum and np.dot. For every model with at most 128 clusters, counts below 2^24 and at most 256 values per feature, and every row with at most one observation per feature, logprob is a finite number of absolute value at most 104 per feature; sample returns the requested counts, its messages stay numbers between 0 and 1 after every instruction and every class it draws had positive weight; marginals are numbers. The trees may be of any shape and size (2^20 features for logprob). Without rounding, logprob and marginals are the exact ones.", "quantifier": "all valid models, rows, draws, orders of summation", "why_tests_cant": "Underflow needs deep trees, rare values or large counts; tests have small trees", "anchors": ["treecat/serving.py:182-221", "treecat/serving.py:247-320", "treecat/serving.py:323-372", "treecat/serving.py:375-433"]}
{"id": "C69", "title": "The annealing schedule survives floating point", "statement": "make_annealing_schedule keeps its state in float64. With every sum rounded to float64: (a) for a whole number of epochs up to 2^51, a whole sample_tree_rate up to 2^52 and at most 2^52 rows nothing is rounded, so the schedule is exactly the one of real arithmetic; (b) for every float64 number of epochs between 1 and 2^48 and every sample_tree_rate of at least 1, the loop still ends, never adds a row that is present or removes one that is absent, never removes one of the last two rows, begins with a row and a tree sample, and ends with every row assigned; and unless it never removes a row, the number of additions is that of the linear schedule up to a relative error of 3*2^(n-52), where 2^n bounds the epochs.", "quantifier": "for every monotone rounding to float64, number of epochs, sample_tree_rate, number of rows and shuffled order", "why_tests_cant": "The state drifts by one rounding error per action, and an action depends on the sign of a state that comes arbitrarily close to zero; test_make_annealing_schedule tries one setting, 10 epochs over 10 rows. With 10.0/3.0 epochs over six rows the float schedule really differs from the exact one.", "anchors": ["treecat/training.py:63-116", "treecat/training_test.py"]}
{"id": "C70", "title": "The accuracy of logprob in float32", "statement": "Take a valid model with counts below 2^24, at most 128 clusters, at most 2^20 features of at most W values, and a row with at most one observation per feature. Unless an entry of a message underflows on the way to the root, logprob computed in float32 is the logarithm of the probability of the row under the model up to (V(M^2+4M+W+35)+M)*2^-23 + V(eps+104V*2^-23), where V is the number of features, M the number of clusters and eps the error of np.log. Without that condition the bound is false: a message is scaled by the sum over all clusters after each neighbour, so the cluster that is behind keeps shrinking, and at a hub with many neighbours its entry is lost for good. For a star of 42 features and a model of 1024 rows the result is too small by more than 49, with no warning, nan or exception.", "quantifier": "for every valid model with small counts, row with at most one observation per feature, order of summation in np.sum and np.dot, and rounding", "why_tests_cant": "serving_test compares logprob with sums over small random models, where nothing underflows; a wrong but finite logarithm looks like a rare row. The error bound is over all models, trees and orders of summation.", "anchors": ["treecat/serving.py:182-221", "treecat/serving.py:323-372", "treecat/serving_test.py"]}
{"id": "C71", "title": "Quantisation in float32", "statement": "quantize_from_probs2 and median work on float32. For every row of nonnegative float32 numbers with a positive total and W <= 1024 values, and every resolution R <= 127: (a) the result is nonnegative and adds up to exactly R; (b) with E = R(R+W+1)*2^-22, every entry is within 1+2E of its target, and no integer vector with sum R is closer to the target in L1 distance by more than 2WE; (c) if 2WE < 1 and the target is already integral, it is returned unchanged; (d) every block of median has exactly the requested count and the same optimality, if the marginals are numbers. The error is real: near a tie a vector is returned that is not the closest. (e) If the marginals are nan, nothing is raised and the whole count goes to the first value; there is a valid model and a row for which median therefore returns a value of probability 1/1024 for a feature with two values.", "quantifier": "for every row of float32 numbers, resolution, order of summation and monotone rounding; for every valid model", "why_tests_cant": "The tests compare a few resolutions and small vectors; the residuals drift by a rounding error in each of up to 127 subtractions, and argmax breaks ties by the last bit. No test has marginals that underflow.", "anchors": ["treecat/util.py:108-127", "treecat/serving.py:118-147", "treecat/util_test.py"]}
{"id": "C72", "title": "Accuracy of marginals and median in float32", "statement": "For every valid consistent model with at most 128 clusters, counts below 2^24 and at most W <= 256 values per feature, and every row with at most one observation per feature: if no number of the run underflows or overflows, then every entry of marginals computed in float32 is the exact probability (the one of C26) up to a factor (1+2^-23)^K with K = 4V(M^2+4M+W+35)+3W+2M+17, linear in the number V of features, whatever np.empty_like contained. Under the same conditions every block of median has exactly the requested count R <= 127, and no other counts are closer to the exact probabilities in L1 distance by more than 2R((1+2^-23)^(2K)-1)+2W*E, with the E of C71.", "quantifier": "all valid consistent models, rows, counts, contents of the uninitialised array, orders of summation, monotone roundings", "why_tests_cant": "Tests compare marginals with nothing; the error depends on the depth of the tree, the number of clusters and the order in which numpy adds.", "anchors": ["treecat/serving.py:375-433", "treecat/serving.py:118-147"]}
{"id": "C73", "title": "Sampling trees in float32", "statement": "For every server over V features with V^2 <= 2^25, any float32 edge logits and any estimated spanning tree, with np.exp within eta, cumulative sums rounded to float32 and the product with the draw rounded to float64: no call of sample_tree raises, and the expected value of any function of the i-th tree with values in [lo, hi] differs from that of the exact sampler by at most (i+1) eps (hi-lo), eps = (V-1) V^2/4 (2^-22 + 2^-52 + eta). The errors do not add up: for some rate rho < 1 that depends on the logits only it is within (rho^(i+1) + 2 eps/(1-rho)) (hi-lo) of the posterior mean.", "quantifier": "all trees, logits, numbers of samples, functions of a tree, roundings to nearest, exponential functions with error eta; the 2^53 draws of np.random.rand are equally likely", "why_tests_cant": "The distribution of the sampler is a sum over all draws; tests sample it with statistical error far above the rounding error and only on small trees.", "anchors": ["treecat/structure.py:364-428", "treecat/serving.py:236-244", "treecat/util.py:77-88"]}
{"id": "C74", "title": "estimate_tree with float32 weights", "statement": "estimate_tree negates the logits, subtracts the minimum and adds 1, all in float32, before it calls minimum_spanning_tree. For every V >= 1, every float32 logits with lo <= logit <= hi, hi >= 0, and every function that returns a minimum spanning tree of the weights it is given: a canonical spanning tree is returned, and its total logit is within 2(V-1)s of the maximum over all spanning trees, s = (hi-lo)((1+2^-24)^2-1) + 2^-24. If different logits differ by more than 2s the tree is exactly optimal. The error is real: for every function that meets the contract there are float32 logits for three features for which the tree is worse than the best one by 1.", "quantifier": "all numbers of features, float32 logits, minimum spanning tree functions, roundings to nearest", "why_tests_cant": "Tests use logits of the size of a few units, where the subtraction hardly rounds; the logits of a large table are in the millions.", "anchors": ["treecat/structure.py:451-473", "treecat/structure_test.py"]}
{"id": "C75", "title": "Edge logits in float32", "statement": "compute_edge_logits builds the gammaln table, adds it up over the cells and subtracts the two vertex logits in float32. For every reachable state of a trainer with M clusters on a table with N rows, every gammaln with error gamma, every order of summation in np.sum and every float32 prior: nothing is raised and every edge logit is within ((1+2^-24)^(M^2+3) (1+gamma)(1+2^-18) - 1)(3A + |prior|) of the exact one, A = M^2 (log 2M + 2) + N log(N+1). The loss is real: once the three sums of an edge have reached 2^24 its logit before the prior is an even integer; with 2^21 rows in the sample and each of two features in one class that is the case.", "quantifier": "all tables, reachable states, numbers of clusters, priors, orders of summation in np.sum, roundings, gammaln functions", "why_tests_cant": "Tests compare logits on tables of at most a few hundred rows, where all sums are small; the error grows with N log N and cancels nothing.", "anchors": ["treecat/training.py:504-506", "treecat/training.py:577-594", "treecat/training.py:43-59"]}
{"id": "C76", "title": "Learning the tree in float32", "statement": "For every reachable state of a trainer with V features, with delta the bound of C75 for one edge logit: (a) estimate_tree of the trainer, with the logits and the weights in float32, returns a canonical spanning tree whose exact total logit is within (V-1)(2 delta + (1+2^-25)/2^21 B + 2^-23) of the maximum over spanning trees, B a bound of the logits; (b) sample_tree of the trainer, with the logits, the exponentials, the sums and the draws rounded, does not raise, and the expected value of any function of the tree with values in [lo, hi] differs from the exact one by at most (V-1)(V^2/4 (2^-22 + 2^-52 + eta) + (exp(2 delta) - 1)/2)(hi-lo).", "quantifier": "all tables, reachable states, priors, minimum spanning tree functions, functions of a tree, roundings, gammaln and exp functions within their errors; V^2 <= 2^25 in (b)", "why_tests_cant": "The distribution of the sampler is a sum over all scan orders and draws, and the error depends on the number of rows through N log N.", "anchors": ["treecat/training.py:196-228", "treecat/training.py:577-594", "treecat/structure.py:364-428", "treecat/structure.py:451-473"]}
{"id": "C77", "title": "The law of row resampling in float32", "statement": "In every state a trainer can reach, add_row of an absent row computed in float32 (messages, inner products, scaling, cumulative sums and draws rounded), when no entry of an inward message is below 2^-85, gives classes whose law is almost the exact conditional law of C19: the mean over all values of the draws of any function of the classes with values in [lo, hi] differs from its mean under probabilities proportional to the likelihood by at most V(M(2^-23+2^-52) + 2(2 ke + M + 15) 2^-23)(hi-lo), for V features, M clusters and edge_probs within ke roundings of count plus prior. If M is a power of two then edge_probs is exact, ke = 0.", "quantifier": "all tables of categorical data with fewer than 2^14 rows, reachable states, rows, functions of the classes, draws, roundings and orders of summation in the inner product", "why_tests_cant": "The law is a mean over 2^(53 V) draws and the error depends on every rounding; the exact law is a sum over M^V vectors of classes.", "anchors": ["treecat/training.py:287-360", "treecat/training.py:525-535", "treecat/util.py:77-88"]}
{"id": "C78", "title": "DataServer's overview queries answer for one model and for ensembles alike", "statement": "Built from an imported dataset and any non-empty list of valid models of its features, DataServer.feature_names lists the features of the schema; edge_logits and estimate_tree are the mean logits and a spanning tree with the largest summed mean logit; sample_tree(n) returns n spanning trees for every random outcome; feature_density is the fraction of rows with a value (0 for an ordinal with one possible value); latent_perplexity, observed_perplexity (of one observation) and latent_correlation are the means over the models of the exact quantities and stay in their ranges.", "quantifier": "for all imported datasets, non-empty lists of valid models and random outcomes", "why_tests_cant": "The tests check shapes on one fixture; the values for ensembles and single models are never compared with the definition.", "anchors": ["treecat/serving.py:649-713"]}
{"id": "C79", "title": "TreeCatServer.sample in float32 draws from the posterior up to a bounded error", "statement": "With every operation rounded to float32 and np.random.rand returning multiples of 2^-53, for every valid model with counts below 2^24, at most 128 clusters and features of at most W <= 256 values, every row with at most one observation per feature and every request for at most 127 observations of features that have values: unless a message underflows, the joint law of the classes and the observations that sample(1, counts, data) draws differs from the posterior law given the row, on every bounded function k with values in [lo, hi], by at most sampleErr * (hi - lo), where sampleErr is linear in the number of features and of requested observations.", "quantifier": "for all valid models with these limits, rows, counts and bounded functions of the sample", "why_tests_cant": "The test compares frequencies of a few thousand samples with probabilities computed by the same float32 server and a loose goodness-of-fit threshold; neither sees an error of the law of order 10^-5, and they run on one small model.", "anchors": ["treecat/serving.py:247-320", "treecat/util.py:91-105"]}
{"id": "C80", "title": "Training in float32 leads to the posterior up to a bounded error", "statement": "With every operation rounded to float32 or float64 as in the code, for tables of categorical features with fewer than 2^14 rows and M = 2^j clusters: from every state that calls can lead to, no legal list of add_row, remove_row and sample_tree calls raises, and for every function of the assignments and the tree with values in [lo, hi] the expected values at the end in float32 and in exact arithmetic differ by at most (a*rowErr + b*treeErr + U)*(hi - lo), for a added rows, b sampled trees and U the expected number of underflows. After n full epochs from any state with all rows added the expected value in float32 differs from the posterior mean by at most (rho^n + 2*(N*rowErr + treeErr)/(1 - rho) + 2*U)*(hi - lo), with rho < 1 that depends on table, prior and M only: rounding errors do not pile up over the epochs.", "quantifier": "for all such tables, states, legal lists of actions, numbers of epochs and bounded functions of assignments and tree", "why_tests_cant": "The statement is about the law of a Markov chain after any number of steps, in two arithmetics; the tests train for a few epochs on small tables, once per seed, and check only that the counts are consistent.", "anchors": ["treecat/training.py:233-430", "treecat/util.py:91-105"]}
{"id": "C81", "title": "train() as a whole, in float32", "statement": "Under the assumptions of C80, for every config with 1 <= learning_init_epochs <= 2^51 and 1 <= learning_sample_tree_rate <= 2^52 that are whole numbers: train() from a new trainer returns whatever is drawn; then all rows are added, the returned logits are the float32 edge logits of the final state, and with learning_estimate_tree the exact total logit of the final tree is within the allowance of C76 of the maximum. For every function of the assignments and the tree (of the assignments only, if the tree is estimated at the end) with values in [lo, hi] the expected values after training in float32 and after exact training differ by at most ((E + n)*N*rowErr + (E*N + n)*treeErr + U)*(hi - lo), for E annealing epochs and n full epochs, and the one in float32 differs from the posterior mean by at most (rho^n + 2*(N*rowErr + treeErr)/(1 - rho) + 2*U)*(hi - lo) with rho < 1 that does not depend on the config. U, the expected number of underflows, is zero for tables with few features, rows and clusters.", "quantifier": "for all such tables, priors, configs, shuffles, draws, maximal spanning tree functions and bounded functions of assignments and tree", "why_tests_cant": "The tests train with one seed and check counts; they can neither average over all draws nor compare with exact arithmetic or the posterior.", "anchors": ["treecat/training.py:63-116", "treecat/training.py:231-284", "treecat/training.py:614-638"]}
{"id": "C82", "title": "The logprob of an ensemble, in float32", "statement": "For every non-empty ensemble of at most 2^20 models as in C70 and every row with at most one observation per feature, if no message of a member underflows: EnsembleServer.logprob in float32 is a number, and differs from the logarithm of the mean of the exact probabilities of the row under the members by at most the bound of C70 plus n*(2*eta + 3*2^-23) + epsilon + eta_c + 104*(2*V + 3)*2^-23, for n models, V features, and errors epsilon of log, eta of exp and eta_c of log(n). Members whose probability is so small that exp returns 0 are no exception.", "quantifier": "for all such ensembles, rows, monotone float32 roundings, orders of summation, and log and exp of the given accuracy", "why_tests_cant": "The test of logprob compares the server with itself on a few small ensembles and cannot compare with the exact mean for all models and rows.", "anchors": ["treecat/serving.py:566-572", "treecat/serving.py:519-527"]}
{"id": "C83", "title": "latent_correlation in floating point", "statement": "For every valid consistent model with at most 128 clusters and counts below 2^24 and all V small enough that the accumulated relative error kappa = (M+5)*2^-23 + V*((M^2+M+13)*2^-23 + 2(M+1)u) is at most 1/32: latent_correlation returns a V by V matrix of float32 numbers or nan. If the mutual information of the latent classes of i and j is at least the error bound of the computed mutual information, entry (i, j) is a number. Every entry that is a number is in [0, 1] and differs from the exact correlation sqrt(1 - exp(-2 I)) by at most sqrt(4 * info_error + 2 eta_e + 2^-50) + eta_s + 2^-24. Below the error bound entries can be nan: after two rows of two features with classes (1,0) and (1,1) the computed mutual information is -2^-52, and the entry for root 1 and vertex 0 is nan.", "quantifier": "for all such models, contents of np.empty, monotone float32 and float64 roundings, orders of summation, and entr, exp and sqrt of the given accuracy", "why_tests_cant": "The test checks the shape and type of the result; nan appears for particular counts only, and closeness to the exact value needs exact arithmetic.", "anchors": ["treecat/serving.py:37-50", "treecat/serving.py:482-515"]}
{"id": "C84", "title": "The perplexities in float32", "statement": "For every valid consistent model with at most 128 clusters, features of at most 256 columns and counts below 2^24: latent_perplexity and observed_perplexity (for counts other than None) in float32 return a number for every feature, and it differs from the exponential of the exact entropy of the latent class, or of one observation of the feature, by a relative error of at most 2*entropy_error + 2*eta_e, where entropy_error is that of n numbers with relative error (M+5)*2^-23, or (W+2M+13)*2^-23 for W columns.", "quantifier": "for all such models, monotone float32 roundings, orders of summation, and entr and exp of the given accuracy", "why_tests_cant": "The tests check the shape and type of the results for a few models and have no exact value to compare with.", "anchors": ["treecat/serving.py:439-479"]}
{"id": "C85", "title": "Train, then query in float32", "statement": "For every table of categorical rows with at most W <= 256 columns per feature, N rows and M clusters, every configuration and whatever training draws: if 2N+M <= 2^n, M <= 2^j, 2MN + (number of columns of a feature) <= 2^c, 2n+j <= 44 and n+c+1+d(n+2j+3) <= 79, where no feature has more than d neighbours in the trained tree (d = V-1 always serves), then nothing underflows in the float32 server of the trained model: logprob of every row with at most one observation per feature is the logarithm of the exact probability up to the error of C70, and the mean of every bounded function of a sample is the exact one up to the error of C79. If moreover some feature reaches every other over at most h edges of the trained tree and n+c+2+d(n+2j+3)+(c+1)h <= 80, the same holds of marginals and median with the errors of C72. (A hundred rows, four clusters, 16 columns per feature and four neighbours per feature are within the first limits.) An ensemble that train_ensemble trains on such a table has a float32 server whose logprob is the logarithm of the mean of the members' exact probabilities up to the error of C82, however the tasks are scheduled.", "quantifier": "for all such tables, priors, configurations, minimum spanning trees, outcomes of training, rows, numbers of observations to draw, monotone float32 roundings and orders of summation", "why_tests_cant": "Tests train a few models and check shapes and rough agreement; underflow depends on the tree, the counts and the row, and no finite set of them shows that it never happens.", "anchors": ["treecat/training.py:614-638", "treecat/serving.py:169-227", "treecat/serving.py:247-321", "treecat/serving.py:323-373", "treecat/serving.py:375-433", "treecat/serving.py:118-148"]}
{"id": "C86", "title": "profile.py runs its command once under each tool, and what it runs completes", "statement": "run_with_tool starts the profiled command exactly once for each documented tool, in the user's environment with TREECAT_THREADS=1 (and, for the timers, profiling and log level unless the user set them); it raises just if a launched program fails, opens the viewer only after a successful profile and on the file just written, and starts nothing for an unknown tool. profile.train and profile.serve complete for every number of rows, columns, categories, epochs and clusters that training accepts, whatever files earlier calls left in the cache and whatever is drawn: train trains one model of the generated dataset; serve answers with the requested number of rows having one observation per feature, their exact log probabilities, medians of the same shape, and a symmetric matrix of correlations in [0,1).", "quantifier": "all tools, environments, exit statuses, sizes, cache histories and random draws", "why_tests_cant": "profile_test.py runs two sizes with one tool on a fresh cache; the claim is about all sizes, histories, draws and environments", "anchors": ["treecat/profile.py:26-55", "treecat/profile.py:58-123", "treecat/generate.py:61-76", "treecat/generate.py:218-240"]}
{"id": "C87", "title": "Training is reproducible, and a run with the generators is a possible outcome", "statement": "train_ensemble with a seed s such that s and s + model_ensemble_size - 1 are unsigned 32 bit integers returns the same list of models whatever the states of numpy's and numba's generators in this process and in the worker processes, the number of threads, an existing pool, the order in which workers finish and the distribution of the chunks among them; and each model is one of the outcomes of training that the other properties describe, for any generators whose permutations are permutations. The ensembles for seeds s and s+1 share all but one of their models. Any other seed raises ValueError, since no earlier code checks it.", "quantifier": "all tables, priors, configs, generators and their states, thread counts, pools, schedules and assignments of chunks to workers", "why_tests_cant": "reproducibility quantifies over generator states and schedules that a test cannot control; a leak of state shows up only in particular orders of execution", "anchors": ["treecat/util.py:57-65", "treecat/util.py:77-88", "treecat/util.py:210-220", "treecat/training.py:231-242", "treecat/training.py:853-880"]}
{"id": "C88", "title": "tempdir and in_tempdir leave no trace; make_seed gives acceptable seeds", "statement": "with tempdir(): if the body changes files only inside of the new directory and does not delete it, then afterwards all files are as before the statement, and the outcome (value or exception) is the body's. with in_tempdir(): the same, and the working directory is as before, wherever the body went. A body that deletes the directory makes the statement raise OSError in place of its own outcome. make_seed returns the number written by the last eight digits of the digest of its arguments, a function of the arguments that set_random_seed always accepts; its only other effect is that it overwrites /tmp/v1.json, and it raises if that file cannot be written.", "quantifier": "for all process states (files, working directory, options), all bodies, returning or raising, all arguments and digests", "why_tests_cant": "A test sees bodies that succeed; the interesting cases are exceptions at any point and arbitrary changes of the state by the body. No test looks at /tmp/v1.json.", "anchors": ["treecat/testutil.py:54-79", "treecat/format.py:78-88"]}
{"id": "C89", "title": "np_printoptions sets print options temporarily", "statement": "with np_printoptions(**kwargs): in the body the given options are set and the others are as before; after the statement all options are as before, whatever the body set and however it ended.", "quantifier": "for all options, keyword arguments and bodies, returning or raising", "why_tests_cant": "The only use in the tests has a body that returns; an exception leaks into whatever runs later in the process.", "anchors": ["treecat/util.py:68-74"]}
{"id": "C90", "title": "Ensembles of servers sample with the generators", "statement": "EnsembleServer.sample and sample_tree, run with the generators of numpy and numba from any states, return the requested number of rows (with nonnegative entries and the requested counts) or of spanning trees. np.random.multinomial accepts the single-precision probabilities of any ensemble of at most 2^24 members, and each member gets a sample with probability within 2^-23 of an equal share; the law of N rows is within N / 2^24 of that of independent rows of the uniform mixture. The expected number of sampled trees with a given property is, up to a constant and 2^-24 for each tree, the number of trees times the probability of the property under the uniform mixture of the posteriors. The same holds for the tree in each position, with the constant divided by the number of trees. After set_random_seed the results are determined by the seed, and sample uses numpy's generator only.", "quantifier": "for all ensembles of at most 2^24 members, all generators and states, all numbers of samples, counts and conditioning data", "why_tests_cant": "Tests use three members; for most sizes the float32 probabilities do not add up to one, and numpy raises ValueError if they exceed it by too much.", "anchors": ["treecat/serving.py:236-320", "treecat/serving.py:543-564", "treecat/util.py:57-105"]}
{"id": "C91", "title": "join_csvs joins files", "statement": "join_csvs on csv files with regular headers (distinct non-empty names, none ending in _JOIN_, with the key) and distinct present keys writes csv_out and changes no other file. The header of csv_out is the key followed by the other names of all files, sorted; it has exactly one line for every key of any file and no other; below every name stands the value of the first file in the list that has one which pandas does not read as missing, and nothing if no file has one. Joining csv_out alone writes the same table again. If join_csvs returns at all, every file of the list exists and has the key in its header.", "quantifier": "for all disks, lists of files, headers, lines, sets of strings read as missing", "why_tests_cant": "join_csvs has no test; pd_outer_join is tested on one pair of frames, without files, missing strings or short lines.", "anchors": ["treecat/format.py:106-107", "treecat/format.py:110-134", "treecat/format.py:135-149"]}
{"id": "C92", "title": "The statistics of sample_tree, and the profiling report", "statement": "Collecting COUNTERS, SERIES and HISTOGRAMS does not change what sample_tree returns. On a spanning tree with E >= 2 edges, whatever is drawn, sample_tree counts one call and E proposals; the number of accepted proposals that it records is at most E and at least the number of edges of the result that the argument did not have; it records for every proposal the bit length of the number c (V - c) of edges between the two components of c and V - c vertices; and it counts an infeasible proposal only if all weights underflow. log_profiling_stats lists every series, histogram, counter and timer exactly once, the timers by falling time with equal times in the order of TIMERS, the others by name.", "quantifier": "for all spanning trees, logits, exponential functions, scan orders, random draws and previous statistics; all contents of the four dicts", "why_tests_cant": "No test looks at the statistics; the counts depend on random draws.", "anchors": ["treecat/structure.py:387-424", "treecat/util.py:223-225", "treecat/util.py:260-309"]}
{"id": "C93", "title": "Cross-validation completes and scores each config by its own model", "statement": "validate.train followed by validate.eval with the same csv file of parameters and the same options completes, whatever is drawn in training, on every table with at least one row whose cells are at most 127. It returns one result per config in the order of the file: the scores of a model that is an outcome of training with this config on the data without the fold of the config, a finite mean log probability that is at most 0 and an L1 loss that is at least 0. On a table without rows training completes and the evaluation raises ValueError. profile.eval therefore completes for every positive number of rows, after any history of generated files: it scores four models, model p trained with two epochs on the data without fold p of eight, so that half of the folds are never held out; its argument cats has no effect.", "quantifier": "for all tables of categorical columns, tree priors, csv files and options that give configs of folds, random draws of the folds and of training, contents of the directory of models, and histories of generated files", "why_tests_cant": "The test runs one small dataset and looks at no score; the draws of training are random.", "anchors": ["treecat/validate.py:64-118", "treecat/validate.py:140-226", "treecat/profile.py:126-149"]}
{"id": "C94", "title": "Forbidden edges (logit -inf) in sample_tree and estimate_tree", "statement": "An edge with logit -inf is forbidden. Whatever spanning tree is given and whatever is drawn, one call of sample_tree ends without an exception and returns a spanning tree with the least possible number of forbidden edges: none if the allowed edges connect all features. COUNTERS.sample_tree_infeasible grows by exactly the number of forbidden edges in the result (by nothing if there is at most one edge). The posterior restricted to trees without forbidden edges is stationary for sample_tree. Without -inf all this is the sample_tree of the other properties. estimate_tree returns a spanning tree without forbidden edges of greatest total logit if there is one, and raises AssertionError otherwise.", "quantifier": "all numbers of features, all edge logits in the extended reals without +inf, all starting trees, all scan orders, all random draws", "why_tests_cant": "The tests use finite logits only; the claim is about every set of forbidden edges and every sequence of draws, and that one scan suffices to remove all avoidable forbidden edges needs an exchange argument.", "anchors": ["treecat/structure.py:364-428", "treecat/structure.py:451-473", "treecat/util.py:77-88"]}
{"id": "C95", "title": "Training with a tree prior that forbids edges (-inf)", "statement": "For every table of at least one multinomial feature, every tree prior whose entries may be -inf, every valid config and whatever is drawn at random: training first does all its work, so that all rows are added, the tree is a spanning tree and the statistics match the assignments. If some spanning tree has no forbidden edge, training completes, the returned edge logits are those of the final state and are -inf exactly for forbidden edges, the tree has no forbidden edge (if there is a row, a full scan, or the tree is estimated), and with learning_estimate_tree its total logit is greatest among all spanning trees. Otherwise training raises AssertionError at its end, and the tree then has as few forbidden edges as possible. With a finite prior this is the train of the other properties.", "quantifier": "all tables of multinomial features, all tree priors in the extended reals without +inf, all numbers of clusters up to 128, all valid configs, all random draws", "why_tests_cant": "The tests train with a prior of zeros; the claim is about every set of forbidden edges and every sequence of draws over a whole run.", "anchors": ["treecat/training.py:196-284", "treecat/training.py:577-594", "treecat/structure.py:364-428", "treecat/structure.py:451-473"]}
{"id": "C96", "title": "Served trees have no forbidden edges", "statement": "A TreeCatServer of a model whose edge logits may be -inf can be made if and only if some spanning tree has no forbidden edge; the constructor raises AssertionError otherwise. Its estimated tree has no forbidden edge and greatest total logit, and whatever is drawn, sample_tree(n) returns n spanning trees without forbidden edges. An EnsembleServer can be made if and only if some spanning tree has no edge that any of the models forbids; its logits are -inf for exactly those edges and the mean of the models' logits elsewhere; each sampled tree has no edge that the model it comes from forbids. Whenever training with a prior that may be -inf returns a model, this model can be served, and all trees it serves respect the prior.", "quantifier": "all numbers of features, all models and ensembles, all edge logits in the extended reals without +inf, all numbers of samples, all random draws", "why_tests_cant": "The tests serve models trained with a prior of zeros; the claim covers every set of forbidden edges, every ensemble and every sequence of draws.", "anchors": ["treecat/serving.py:223-244", "treecat/serving.py:521-552", "treecat/training.py:231-284"]}
{"id": "C97", "title": "Trees served from a model with forbidden edges come from the posterior", "statement": "Let some edge logits of a model be -inf, so that some spanning tree is left. The trees that its server samples converge to the posterior over the spanning trees without forbidden edges, with probabilities proportional to the exponential of the sum of the edge logits: the expected value of a function of the i-th tree with values in [lo, hi] is within rho^(i+1) (hi - lo) of its posterior mean, for a rate rho < 1 that depends only on the model. In particular every tree without forbidden edges can be reached from every other in one scan. The trees of an ensemble estimate the uniform mixture of the posteriors of its members, up to a constant that does not depend on the number of trees. Each tree of the list of an ensemble, in whatever position, is distributed like this mixture up to an error inversely proportional to the number of trees.", "quantifier": "all numbers of features, all models and ensembles, all edge logits in the extended reals without +inf for which a server can be made, all functions of trees, all numbers of samples", "why_tests_cant": "A test can compare frequencies for a few features and a prior of zeros; a chain that cannot leave a part of the allowed trees, or has a slightly wrong limit for some pattern of forbidden edges, would go unnoticed.", "anchors": ["treecat/serving.py:236-244", "treecat/serving.py:543-552", "treecat/structure.py:365-426"]}
{"id": "C98", "title": "Full epochs of training with forbidden edges converge to the posterior over the trees without them", "statement": "Let the tree prior be -inf for some edges. From whatever tree without these edges and whatever assignments the full epochs of training start, the distribution of tree and assignments converges geometrically to the posterior restricted to the trees without these edges: there is a rate rho < 1, depending only on table, prior and number of clusters, such that after n full epochs the expected value of any function of tree and assignments with values in [lo, hi] is within rho^n (hi - lo) of its posterior mean. No epoch raises. A whole run of train from a new trainer, whose tree may have forbidden edges, through annealing, n >= 1 full epochs and the final estimate of the tree, is within rho^(n-1) (hi - lo) of the posterior mean. So as n grows the probability that training ends with a given tree tends to the posterior probability that this tree is estimated.", "quantifier": "all tables of multinomial features, all priors of the right length with values in the reals or -inf, all numbers of clusters, all starting states with an allowed tree, all functions, all numbers of epochs", "why_tests_cant": "Whether the chain can get from every tree without forbidden edges to every other depends on the pattern of forbidden edges; the tests train with a prior of zeros only, and no finite number of epochs shows convergence.", "anchors": ["treecat/training.py:195-213", "treecat/training.py:231-284", "treecat/training.py:263-270", "treecat/structure.py:365-426"]}
{"id": "C99", "title": "The series sample_tree_num_rows records the sizes of the subsamples on which training samples trees", "statement": "Recording SERIES.sample_tree_num_rows does not change what training returns, leaves or draws. Whatever is drawn, a run of train from a new trainer completes and appends to the series first the sizes of the subsamples of the annealing and then the number of all rows once for each full epoch. Each size of the annealing is between 1 and the number of rows, and the first is 1 when there are rows. If a and b are consecutive sizes then (b - a - 1) * sample_tree_rate < a, and after the last size a there are fewer than a / sample_tree_rate rows left to the number of all rows.", "quantifier": "all tables of multinomial features, all priors of the right length, all configurations with learning_init_epochs and learning_sample_tree_rate at least 1, all earlier contents of the series, all draws", "why_tests_cant": "No test reads the series; the sizes depend on the interplay of the adding, removing and sampling clocks of the schedule for every number of rows, rate and number of epochs.", "anchors": ["treecat/training.py:206", "treecat/training.py:231-284", "treecat/training.py:614-638", "treecat/util.py:264"]}
{"id": "C100", "title": "Training prefers no cluster name and no order of the rows", "statement": "The posterior of tree and assignments does not change when the clusters of each feature are renamed, or when the rows are put in another order and the assignments with them. So for every renaming of the clusters, the expected value at the end of train of a function of the edge logits, assignments and tree with values in [lo, hi] differs from that of the function of the renamed assignments by at most 2 rho^n (hi - lo), where n is the number of full epochs and rho < 1 depends only on table, prior and number of clusters. Each cluster has probability 1/M for each row and feature, up to rho^n. For two tables that differ in the order of their rows only, the expected values at the end of train of a function of edge logits and tree differ by at most 2 rho^n (hi - lo).", "quantifier": "all tables of multinomial features, all priors of the right length, all numbers of clusters up to 128, all configurations with learning_init_epochs and learning_sample_tree_rate at least 1, all renamings, all orders of the rows, all functions", "why_tests_cant": "Full epochs go through the rows in their order and draw clusters by their number, so a symmetry of the result is a statement about distributions over all runs; no test compares trainings on reordered tables.", "anchors": ["treecat/training.py:231-284", "treecat/training.py:287-429", "treecat/training.py:432-473"]}
{"id": "C101", "title": "Training prefers no order of the features", "statement": "Let a second table have the features of the first in another order, and let its tree prior give each pair of features the same value. The posteriors of tree and assignments are the same when features and vertices are translated. So without learning_estimate_tree, the expected values at the end of train of a function of assignments and tree with values in [lo, hi], for the first table, and of the same function of the translated assignments and tree, for the second, differ by at most 2 rho^n (hi - lo), where n is the number of full epochs and rho < 1 depends only on tables, priors and number of clusters. With learning_estimate_tree this holds for functions of the assignments; the estimated tree may depend on the order when several trees are equally good.", "quantifier": "all pairs of tables of multinomial features that differ in the order of the features, all priors of the right length, all numbers of clusters up to 128, all configurations with learning_init_epochs and learning_sample_tree_rate at least 1, all functions", "why_tests_cant": "The proposals of sample_tree, the numbering of edges and the propagation programs depend on the order of the features, so the symmetry is a statement about distributions over all runs; no test compares trainings on reordered tables.", "anchors": ["treecat/training.py:231-284", "treecat/training.py:287-429", "treecat/structure.py:365-426"]}
{"id": "C102", "title": "Queries do not depend on the names of the clusters", "statement": "Let two models differ only in the names of the clusters, renamed feature by feature by permutations (two runs of training that end with the same tree and with assignments that differ in names give such models). Then their servers return equal log probabilities, latent perplexities, observed perplexities and latent correlations, equal blocks of marginals, and samples with the same joint law.", "quantifier": "all valid models and all permutations of the clusters of each feature, all rows, counts, numbers of samples and uninitialised memory; for marginals, observed perplexity and correlations the counts of edges and vertices agree", "why_tests_cant": "Propagation, normalisation and the sampling of categories go through the clusters in the order of their numbers; a test compares single models, while the claim is about all permutations and all queries.", "anchors": ["treecat/serving.py:182-515", "treecat/training.py:629-638"]}
{"id": "C103", "title": "Queries do not depend on the order of the features, except marginals", "statement": "Let two models differ only in the order of the features (two runs of training on a table and on the same table with reordered features, that end with the same assignments and the same tree, give such models). Then log probabilities of translated rows are equal, latent perplexities, observed perplexities and latent correlations of the same features are equal, and samples have the same joint law when translated. For marginals this is false: on a path of four features that reads the same backwards, an observation of the third feature does not change the block of the first, while the mirrored observation of the second feature changes the block of the last.", "quantifier": "all pairs of valid models that differ in the order of the features, all rows, counts, numbers of samples and uninitialised memory; for perplexities and correlations the counts of edges and vertices agree", "why_tests_cant": "Edges are numbered and directed, and the root of the propagation is chosen, by the order of the features; a test compares single models, while the claim is about all orders and all queries.", "anchors": ["treecat/serving.py:182-520", "treecat/structure.py:139-225"]}
{"id": "C104", "title": "Training and then serving computes posterior means, for probabilities and for samples", "statement": "Take the probability of a row that the server of the trained model reports, exp(TreeCatServer(model).logprob([row])[0]) with model returned by train. Its expected value over all runs of training differs by at most rho^n from the mean of the probability of the row under the posterior of assignments and trees, where n is the number of full epochs and rho < 1 depends only on table, prior and number of clusters. The probability of the row for given assignments and tree is that of the tree model with the counts of all rows; with learning_estimate_tree the tree is the one that estimate_tree returns for the assignments. Likewise the rows drawn by sample(N, counts, data) of the trained model have, over all runs of training, the law of the posterior mixture of independent rows given assignments and tree, up to rho^n for products of functions of the rows with values in [0, 1].", "quantifier": "all tables of multinomial features with at least one value each, all tree priors of the right length, all numbers of clusters up to 128, all configurations with learning_init_epochs and learning_sample_tree_rate at least 1, all rows of counts, all requested counts up to 127, all evidence and numbers of samples", "why_tests_cant": "It relates the whole of training, a random process, to the whole of serving, through all assignments and all spanning trees; a test sees single runs.", "anchors": ["treecat/training.py:231-284", "treecat/training.py:560-640", "treecat/serving.py:182-227", "treecat/serving.py:323-373", "treecat/serving.py:247-320"]}
{"id": "C105", "title": "The probabilities and samples of a trained model do not depend on the order of the features, nor the probabilities on the order of the rows", "statement": "For two tables that hold the same multinomial features in a different order, with edge prior weights translated accordingly and learning_estimate_tree off, the expected value over all runs of train of the probability exp(logprob) that the server of the trained model reports for a row is the same for both tables (with the row translated), up to 2*rho^n for n full epochs, where rho < 1 does not depend on the row or the configuration. The same holds for the expected values of products of functions with values in [0, 1] of the rows drawn by sample(N, counts, data), with counts, data and rows translated. For two tables with the same rows in a different order, the expected reported probabilities agree in the same sense, with learning_estimate_tree on or off.", "quantifier": "all pairs of tables related by a permutation of the features, all prior weights, all rows of counts, all configurations with at least one init epoch and a positive tree rate, all contract-satisfying spanning tree routines, all numbers of clusters up to 128", "why_tests_cant": "The claim is about exact expectations over all random choices of two training runs followed by serving; a test sees a few samples of one table.", "anchors": ["treecat/training.py:231-284", "treecat/training.py:560-640", "treecat/serving.py:182-227", "treecat/serving.py:323-373"]}
{"id": "C106", "title": "An ensemble estimates posterior means with mean square error at most 1/(4 size)", "statement": "Train an ensemble of size members by train_ensemble and serve it by EnsembleServer. No run of training fails. The probability exp(logprob) that the server reports for a row has, over all runs, an expected value within rho^n of the posterior mean of the probability of the row, and a mean square distance to that posterior mean of at most 1/(4 size) + rho^(2n), for n full epochs, where rho < 1 depends only on table, prior and number of clusters. Every row drawn by EnsembleServer.sample has, over all runs of training, the law of the posterior mixture up to rho^n, and given the ensemble the expected value of a function of the row with values in [0, 1] has the same bound on its mean square distance to the posterior mean.", "quantifier": "all tables of multinomial features with at least one value each, all tree priors of the right length, all numbers of clusters up to 128, all configurations with learning_init_epochs and learning_sample_tree_rate at least 1 and either value of learning_estimate_tree, all rows of counts, all ensemble sizes from 1", "why_tests_cant": "The bound is on a moment over all runs of training of all members, for every size; a test sees single ensembles.", "anchors": ["treecat/training.py:819-882", "treecat/training.py:560-640", "treecat/serving.py:521-534", "treecat/serving.py:566-572", "treecat/serving.py:554-564"]}
{"id": "C107", "title": "cat prints the stored objects in order, up to the first file it cannot show", "statement": "cat(*paths) prints the objects of the paths in order up to the first path that does not end in .pkz or does not hold an object written by pickle_dump, and raises if and only if there is such a path: AssertionError if the name does not end in .pkz, another error otherwise. What pickle_dump has stored under a .pkz name is printed. Objects stored under .jz names, which pickle_load reads, are refused.", "quantifier": "all contents of the disk, all lists of paths, all stored datasets, models and ensembles", "why_tests_cant": "The claim is over all disks and all lists of paths; cat has no test.", "anchors": ["treecat/format.py:580-585", "treecat/format.py:65-75"]}
{"id": "C108", "title": "What the comparison of the tests accepts", "statement": "assert_equal(x, y) passes if and only if x and y are equal as follows: numbers of the same type with the same value, none of them nan; equal strings; lists of the same length whose elements have the same values, whatever the types of the numbers; dictionaries with the same keys in any order and values equal in this sense; arrays of the same shape, or one of them without dimensions, with the same elements, nan included, whatever their dtypes. The order of the arguments does not matter. An object passes against a copy of itself if and only if no number in it outside of arrays is nan. The relation is not transitive: an array without dimensions passes against arrays of different shapes.", "quantifier": "all nested dictionaries with string keys over numbers (without infinities), strings, lists of numbers and strings, and arrays of numbers", "why_tests_cant": "assert_equal decides whether the tests of pickle_dump and pickle_load pass and has no test of its own; the claim is over all nested objects.", "anchors": ["treecat/testutil.py:82-91", "treecat/format_test.py:29-46"]}
{"id": "C109", "title": "Large errors of trained ensembles are exponentially unlikely", "statement": "Train an ensemble of size members by train_ensemble with n full epochs and serve it by EnsembleServer. For every eps >= 0 and every list of rows, the probability over all runs of training that the probability exp(logprob) reported for any of the rows differs from its posterior mean by rho^n + eps or more is at most 2 exp(-size eps^2 / 2) times the number of rows, where rho < 1 depends only on table, prior and number of clusters. For rows drawn by EnsembleServer.sample, the expected value, given the ensemble, of a function of a row with values in [0, 1] differs from its posterior mean by rho^n + eps or more with probability at most 2 exp(-size eps^2 / 2).", "quantifier": "all tables of multinomial features with at least one value each, all tree priors of the right length, all numbers of clusters up to 128, all configurations with learning_init_epochs and learning_sample_tree_rate at least 1 and either value of learning_estimate_tree, all lists of rows of counts, all eps >= 0, all ensemble sizes from 1", "why_tests_cant": "The claim is about probabilities of rare events over all runs of training, and about all tables and rows.", "anchors": ["treecat/training.py:819-882", "treecat/training.py:560-640", "treecat/serving.py:521-534", "treecat/serving.py:566-572", "treecat/serving.py:554-564"]}
{"id": "C110", "title": "Switching compilation off leaves the functions as they are", "statement": "With TREECAT_JIT=0, where jit is no_jit, a function decorated by @jit or by @jit(*args, **kwargs) is bound to its name unchanged, unless the decorator has no keyword arguments and exactly one argument which is a callable other than no_jit; then the name is bound to what that callable returns for the function. All decorators in the code leave their functions unchanged.", "quantifier": "all positional and keyword arguments of the decorator, all functions", "why_tests_cant": "The claim is over all arguments of the decorator; the tests run with one setting of TREECAT_JIT.", "anchors": ["treecat/util.py:37-54", "treecat/structure.py:86"]}
