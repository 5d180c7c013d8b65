# A Lean 4 model of posterior/treecat

This directory holds a formal model of the Python package in `/repo/treecat` and
machine-checked proofs, for all inputs, of the properties in `properties.jsonl`.

## Layout

- `lean/Verif/Model/*.lean`: the model, one file per Python module. Every
  definition cites the file and lines it models and names its simplifications.
- `lean/Verif/Spec/*.lean`: small specifications (spanning tree, eccentricity,
  joint distribution, ...) written without reference to the model.
- `lean/Verif/Lemmas/*.lean`: helper lemmas.
- `lean/Verif/Props/*.lean`: the property theorems, one file per area, each with
  an `example` showing a concrete case that meets its hypotheses.
- `lean/Verif/Tests/*.lean`: the tables of the repo's own tests, evaluated on the
  model. They are tests, not proofs. `Props/SimpleGraph` compares the notions of
  tree and center with those of Mathlib.
- `seeded/LOG.jsonl`: edits of the model that imitate bugs, and what they broke.

## Modelling conventions

- Python functions become total Lean functions. A raise is a value:
  `Except PyErr a`. `assert` is `PyErr.assertion`.
- `while` loops take fuel. Running out of fuel is `PyErr.timeout`, and the
  theorems show that it does not occur.
- Integers are `Nat` or `Int`. Fixed-width wrap-around is modelled only where a
  property speaks about it (int8 cells, int32 edge ids, int16 programs).
- Floating point is replaced by exact arithmetic in an arbitrary linearly ordered
  field (or the reals, where `log`, `exp` or `gamma` occur). Rounding is modelled
  in C63 to C65, C68 to C77, C79 to C85 only; `inf` and `nan` are one value, in C65, C68, C70 to C72, C77 and C79 to C85 only.
- Randomness is an argument. Code that draws is written once, over an arbitrary
  monad with a `choose` operation, and is then read in two ways: as a function of
  arbitrary outcomes (safety for all outcomes) and as an expectation operator
  (exact law of the result). `sample_from_probs` itself is modelled at the level
  of one uniform draw, and its law is a theorem about Lebesgue measure.
- numpy arrays are lists where bounds matter and functions elsewhere. Where they
  are functions, separate theorems show that the indices used are in range.

## Per property: what is modelled and how it is proved

| id | what is modelled | how it is proved |
|----|------------------|------------------|
| C01 | nested loops of `make_complete_graph`, `find_complete_edge` | induction on V; triangular number arithmetic |
| C02 | `make_tree`, `TreeStructure` | sorting is canonical on permutations |
| C03 | leaf-peeling queue of `find_center_of_tree` | layer invariant; two long disjoint branches at the last vertex |
| C04 | BFS and flattening of `make_propagation_program` | BFS invariant over a rooted tree; order predicates by list induction |
| C05 | `sample_tree` with jit sets, DFS, valid edges | invariant: state represents a spanning tree; exchange step |
| C06 | the same, with checked array accesses | every access returns `some`; DFS stack bound |
| C07 | `sample_tree` read as an expectation operator | detailed balance; symmetry under relabelling |
| C08 | `estimate_tree` with `minimum_spanning_tree` as a parameter | order reversal of weights; a Kruskal model shows the contract is satisfiable |
| C09 | `triangular_to_square` | C01 plus square-root identity |
| C10 | DFS stack of `print_tree` | invariant on the stack |
| C11 | DFS of `order_vertices` with arbitrary set order | invariant: finished subtrees are permutations of subtree vertices |
| C12 | `sample_from_probs` on one uniform draw | cumulative sums; Lebesgue measure of an interval |
| C13 | greedy loop of `quantize_from_probs2` | quota invariant; exchange argument |
| C14 | ragged helpers | list induction |
| C15 | pool with an arbitrary completion schedule | invariant over the schedule |
| C16 | schedule generator over an ordered field | linear invariant on state; window of the cyclic order |
| C17 | trainer state machine | invariant over all operation lists |
| C18 | `train` | C16 + C17 + C05 + C08 |
| C19 | `treecat_add_row` as expectation operator; `logprob` with Gamma | message passing correctness; Gamma recursion |
| C20 | `compute_edge_logits` | algebra; counterexample where the subsample size equals V |
| C21 | `train_ensemble` | list induction, C15 |
| C22 | `TreeCatServer.__init__`, `logprob` | variable elimination along the program |
| C23 | same | leaf elimination with consistent marginals |
| C24 | `sample` as expectation operator | chain rule along the program |
| C25 | `sample` for all outcomes | invariant |
| C26 | `marginals` | normalisation; characterisation of what is computed; counterexample to exactness |
| C27 | `median` | C13 |
| C28 | perplexities over the reals | Jensen / Gibbs inequality |
| C29 | `latent_correlation` over the reals | joint by induction along the program; information inequalities |
| C30 | `EnsembleServer` | algebra of logsumexp |
| C31 | ensemble sampling | list lemmas |
| C32 | `DataServer.sample` + `export_rows` | C25 + schema invariants |
| C33 | `DataServer.logprob`, `median` | the documented calls always raise: proved as a negation |
| C34 | `import_rows`, `export_rows` | per-cell round trip |
| C35 | `load_data` | per-cell agreement |
| C36 | `guess_schema` on parsed csv rows | list/multiset lemmas; the source column is refuted |
| C37 | `guess_schema` then `load_schema` | per-feature invariants |
| C38 | `load_schema` | list induction; group rows are refuted (always raise) |
| C39 | `normalize_string` over an abstract character lower-casing | list lemmas |
| C40 | `pd_outer_join` on keyed frames | induction on frames |
| C41 | config (de)serialisation on character lists | parser lemma; negative values refuted for round trip, injectivity for all |
| C42 | `make_config` | list lemmas |
| C43 | `split_data` and its users | pointwise |
| C44 | `read_param_csv` | list induction |
| C45 | `EnsembleServer.sample` as expectation operator | C24 plus the law of the multinomial split and of the shuffle; equal weighting under evidence refuted |
| C46 | the state machine of CPython's csv reader and writer | simulation of the reader on written text |
| C47 | `import_data` on the texts of csv files | composition of C35, C38, C46 |
| C48 | `feature_density` | counting |
| C49 | `train_ensemble` and `eval` of validate.py | list induction over configs; C41, C43, C44 |
| C50 | `process_eval_task` | C22, C27, C43 |
| C51 | `train` with all rows added, as expectation operator | every row step and every tree step is a Gibbs step (C07, C19, C20) |
| C52 | the same | a single epoch reaches every tree and assignment; Doeblin's theorem; a whole run of `train`, from the constructor to the final estimate of the tree, is an average over such epochs |
| C53 | `generate_tree` | `sample_tree` keeps spanning trees and gives weight to each |
| C54 | `generate_dataset`, `generate_fake_model`, `generate_fake_ensemble` | the numpy loops of `generate.py` evaluated to counting functions |
| C55 | `generate_clean_dataset` | the law of `sample` (C24), a recursion over distances, convexity of x log x |
| C56 | `sample_tree` of servers and ensembles | the chain of C07 reaches every tree in one call; Doeblin's theorem; the split over members has uniform expectation |
| C57 | circular plot | permutation from C11; the disk is convex; Bézier curves are convex combinations |
| C58 | feature overlap, Laplacian | permutation of rows and columns; double sums |
| C59 | `add_panning_to_svg` | case analysis of lines |
| C60 | the commands of the README as functions on the contents of a disk | composition of C18, C21, C32, C36, C37, C47 |
| C61 | the loop over edges as a machine that interleaves single steps | invariant over all schedules |
| C62 | the directory of generated files under any history of calls | invariant on the contents; names are injective |
| C63 | `sample_from_probs` with rounded sums and products | monotone rounding; error bounds by induction |
| C64 | one entry of `edge_probs` under any history of float32 updates | invariant: the deviation is a multiple of the last bit of the largest entry so far |
| C65 | `treecat_add_row` with every operation rounded, in every reachable state | invariant over instructions; bounds of messages by powers of two |
| C66 | the abstract trainer over the methods of a subclass; the unfinished trainers | unfolding; the first action of a schedule adds a row (C16) |
| C67 | `profile_timed` on trees of steps, decisions, handlers and calls | structural induction |
| C68 | `TreeCatServer.__init__`, `logprob`, `sample`, `marginals` with every operation rounded | invariant over instructions; bounds of messages by powers of two |
| C69 | `make_annealing_schedule` with every sum rounded | loop invariant with drift; exactness on whole numbers |
| C70 | `logprob` with every operation rounded, against the exact probability | invariant over instructions: every message is exact up to a counted number of roundings |
| C71 | `quantize_from_probs2` and `median` with every operation rounded | loop invariant with drift; clamping to an exactly balanced target |
| C72 | `marginals` and `median` with every operation rounded, against the exact probabilities | the invariant of C70 up to an unknown positive scale, then outward; triangle inequality for `median` |
| C73 | `sample_tree` of a server with every operation rounded, against the exact chain and the posterior | distance of distributions for one draw (from C63), induction over slots, telescoping over the chain with the contraction of C56 |
| C74 | `estimate_tree` with the weights rounded | bound per weight; exchange argument: a tree that no exchange of one edge improves is optimal for every weight ordered alike |
| C75 | `compute_edge_logits` with every operation rounded, against the exact logits | counted roundings relative to a bound of the summands; convexity bounds for log Gamma; parity of large floats |
| C76 | the trainer's `estimate_tree` and `sample_tree` from float32 logits to the tree | C73, C74 and C75 composed; distance of normalised exponentials of perturbed logits |
| C77 | `add_row` in float32, from the arrays to the drawn classes | invariant over the inward program: messages satisfy the local equations up to roundings; exact law of draws from such messages; perturbation of a tree-shaped weight |
| C78 | queries of `DataServer` without rows, for one model and ensembles | lifting of the theorems about the servers; the constructor decides which |
| C79 | `sample` of a server in float32, from the model to the drawn classes and observations | the invariant of C77 for the server's messages; draws of observations as a fold with a bound per draw; both averages composed |
| C80 | training in float32: lists of `add_row`, `remove_row`, `sample_tree`; full epochs | simulation relation between the float and the exact run with an expected error per action (from C76 and C77), composed; the contraction of C52 absorbs the errors |
| C81 | `train` in float32: shuffle, schedule, full epochs, estimate | the schedule of C69 is the exact one for whole numbers; its numbers of rows and trees are bounded through C16; then C80, and C76 for the last tree |
| C82 | `EnsembleServer.logprob` in float32 | C70 for the members; `logsumexp` shifted by the maximum has a sum of at least nearly 1, so absolute errors of `exp` become absolute errors of the logarithm |
| C83 | `latent_correlation` in float32 and float64 | relative errors of the messages along the program, absolute errors of entropies; `nan` where the computed mutual information is negative: for two rows the five logarithms are enclosed by their series, which fixes the rounded values |
| C84 | both perplexities in float32 | the entropy bound of C83 with 24 bits |
| C85 | `train`, then `logprob`, `sample`, `marginals` and `median` in float32 | the counts of a trained model are those of the rows (C12, C16); transition factors average to one, so a message loses a bounded number of bits per neighbour and per level on the way from the root, and nothing underflows in C70, C72, C79 and C82 |
| C86 | `run_with_tool`, `train_files`, `serve_files` | case analysis of the tools; composition of C62, C21, C22, C25, C27, C29 |
| C87 | `set_random_seed`, training with the generators in a pool of workers | simulation of programs run with generators by those with arbitrary choices (`GenSim`); results independent of the starting state (`Seeded`) |
| C88 | `tempdir`, `in_tempdir`, `fingerprint`, `make_seed` | programs on the state of a process (files, working directory, options) that may raise; arbitrary bodies |
| C89 | `np_printoptions` | the same; counterexample for bodies that raise |
| C90 | `sample` and `sample_tree` of an ensemble, run with the generators | `GenSim` from C87, applied to the facts of C25 and C31; the check of `np.random.multinomial` is computed exactly (all partial sums are multiples of 2^-47); the law with rounded probabilities is compared with that of C45 factor by factor |
| C91 | `read_csv`, `join_csvs` and pandas' `read_csv`, `to_csv` on tables of fields | C40 applied to the frames of the files; the cells of the result are read back |
| C92 | `sample_tree` with its counters, series and histogram; `log_profiling_stats` | erasing the statistics gives `sampleTree` in every lawful monad; induction over the scan with the slots changed so far; two-colourings counted by induction on V |
| C93 | `validate.train` and `validate.eval` composed with `train_model`, `TreeCatServer` and `generate_dataset_file`; `profile.eval` | C49, C50 and the outcomes of training put together config by config |
| C94 | `sample_tree` and `estimate_tree` with logits `-inf` | induction over the scan: a slot that has been visited holds an allowed edge or has no allowed edge across its cut, and later moves keep this (exchange argument); local optimality gives the least number (`total_le_of_exchange`); the Gibbs argument of C07 with weights that may be 0 |
| C95 | whole training runs with a tree prior that may be `-inf` | the induction of C18, with the invariant that the tree has as few forbidden edges as possible from the first `sample_tree` on; the outcome is decided by `estimate_tree` (C94); equality of programs for a finite prior |
| C96 | servers of models with forbidden edges | induction over the samples, each a scan of C94; the sum of the members' logits is `-inf` where a summand is |
| C97 | trees served with forbidden edges follow the posterior | C94 for the invariant weights; exchange inside the allowed trees shows that one scan reaches each of them; then Doeblin, as in C56 |
| C98 | full epochs with forbidden edges converge to the posterior | as C52, for pairs of assignments and allowed tree; the tree step by C97, the row steps as in C51; a whole run as in C52, as a bound and as a limit |
| C99 | the series `sample_tree_num_rows` | training with the series as an argument and a result; the sizes from the actions of the schedule (C16) |
| C100 | training prefers no cluster name and no order of the rows | symmetries of the posterior, by reindexing the counts; training by C52 |
| C101 | training prefers no order of the features | as C100, with a bijection of the spanning trees |
| C102 | queries do not depend on the names of the clusters | reindexing of the sums over latent classes, on top of the exactness theorems C22-C29 |
| C103 | queries other than marginals do not depend on the order of the features | as C102, with a correspondence of the edges and of the columns; counterexample for marginals |
| C104 | the expected probability that the server of a trained model reports tends to its posterior mean | C52 for functions of the whole final state, C22, counts of the final state |
| C105 | train-then-serve reports the same expected probabilities for every order of the features, up to a vanishing error | C104 on both tables, `modelOf_permuted`, C103, posterior sums in both orders |
| C106 | the mean square error of the probabilities that the server of a trained ensemble reports | training as an average over models (`trainMember_avg`), moments of sums of independent terms, C104, C30 |
| C107 | `cat` | induction over the paths |
| C108 | `assert_equal` of the tests | mutual induction over nested objects; counterexample to transitivity |
| C109 | large errors of trained ensembles | training as an average (C106), moment generating functions of independent terms (Hoeffding's method), union bound |
| C110 | `no_jit` | case analysis over the arguments |

Which theorem proves which property, and which clauses are refuted, is in
`MANIFEST.json`. A property has status `partial` where a clause is false of the
code; the theorem then states the part that is true and another theorem proves
the negation of the clause by a witness.

## Where code and properties disagree

These were found while proving. Each is a theorem unless marked (read).

Training and structure:

- `compute_edge_logits` (training.py:584) compares `len(added_rows)` with the
  number of columns instead of rows. When a proper subsample has as many rows as
  there are columns, assignments of removed rows enter the logits
  (`edgeLogits_stale`).
- `find_complete_edge` overflows int32 from vertex 46342 on
  (`findCompleteEdge32_overflow`). `find_complete_edge(v, v)` is the id of
  the edge from 0 to `v + 1` (`findCompleteEdge_self`; callers use it only where the weight
  is ignored).
- `sample_tree` returns the list of edges unsorted when it has at most one edge.
- A tree prior with `-inf` that separates the features is accepted by `sample_tree`, which keeps as few
  forbidden edges as possible and counts them (`sampleTreeInf_least`), but `estimate_tree` raises
  AssertionError (`estimateTreeInf_max`). `train` calls it after the last epoch (training.py:274), so all
  the work is lost (`trainInf_spec`). With two features the forbidden edge is not counted.
  Two models that can each be served may not be servable together: an `EnsembleServer` forbids what any member
  forbids, and its constructor raises AssertionError if no tree is left (`ensembleInf_init`, with an example).
- `add_row` with an id beyond the table leaves the id in `added_rows` before the IndexError
  (`addRow_phantom`), so the statistics no longer match (`addRow_phantom_breaks`) and the check
  of `logprob` passes with a row missing (`logprob_phantom`). Negative ids, which numpy counts
  from the end, are not modelled; `add_row(-1)` and `add_row(N - 1)` would count one row twice
  (read).
- A feature without columns makes the measurement prior 0, so `logprob` takes `gammaln` at its
  pole (`meas_pole`).
- `train_model` accepts `model_latent_dim > 0` and then always raises: the
  `TreeGaussTrainer` wants an array and gets a `Table`, the `TreeMogTrainer` is a
  TODO (`trainModel_dispatch`). Given an array the former raises in its first
  `add_row` (`gaussTrain_raises`), `remove_row` reads `self._feat_s`, which does not
  exist (`gaussRemoveRow_raises`), and `feat_ss` has the wrong shape for the
  statements that update it, in every dimension (`gaussUpdate_raises`).

Serving:

- `marginals`: the outward messages omit the other branches at each vertex, so
  evidence on siblings is ignored (`marginals_not_exact`).
- `latent_correlation` can contain `nan`, already after two rows: for independent classes the
  computed mutual information is -2^-52, and the root is taken of a negative number
  (`latentCorrelation_nan`).
- `observed_perplexity` replaces given counts by ones and crashes on None
  (`observedPerplexity_ignores`, `observedPerplexity_none`).
- `DataServer.logprob` with evidence always raises; `DataServer.median` and
  `mode` of a dict always raise (`dataServer_logprob_evidence`,
  `dataServer_median_dict`). `mode` and the ensemble's `marginals` are not
  implemented.
- `EnsembleServer.sample` with evidence gives members equal weight instead of
  weighting them by the probability of the evidence
  (`ensemble_sample_not_conditional`).
- `logprob` leaves out the multinomial coefficient (`ensemble_sample_logprob`).
- `quantize_from_probs2` returns int8, which wraps above 127 (`quantize_wraps`).
- `multinomial_entropy` is not implemented for three or more categories and
  more than one observation.

- `edge_probs` is updated in place in float32. With 32 clusters, an entry that goes
  up to 2^18 and back is 0 instead of the prior 1/64 (`edgeWalk_lost`); with 3
  clusters one row added and removed changes it (`edgeWalk_inexact`).
- `treecat_add_row` keeps no logarithms. With an ordinal of range 0 to 100 all
  float32 weights of a row can underflow to 0, and then class 0 is always drawn
  although the exact weights are equal (`floatAddRow_underflow`).
- `treecat_add_row`: the same happens with categorical data. `OP_IN` divides the message of a vertex by its
  largest entry after each child, so at a vertex with many children one class can underflow to 0 and cannot recover.
  With 65 binary features in a star, 31 leaves that speak for class 0 and then 33 that speak for class 1, class 1 of the
  hub has probability at least 0.999 and is never drawn (`floatAddRow_hub`). `sample` of a server has the same fault (`floatSample_hub`). Hence the hypotheses of C77 and C79.
- `sample_from_probs` of float64 weights below 2^-1021 can return an index of
  weight zero (`floatSample_tiny`). The code uses float32, where this cannot
  happen.
- `marginals` scales `messages_in` but not `messages_out`. On a chain of 29 features
  with rare values it underflows, and the result is nan (`floatMarginals_nan`).
  `logprob` and `sample` scale every message and work there.
- `logprob` scales a message after each neighbour by the sum over the clusters. At a
  hub with many neighbours one cluster can underflow to 0 and cannot recover. With 41
  neighbours and a model of 1024 rows the result is too small by more than 49,
  silently (`floatLogprob_underflow`).
- `median` does not notice nan. `argmax` returns the first nan, so if the marginals
  of a feature underflow to 0/0, its first value is returned, however improbable
  (`floatMedian_nan`).
- Near a tie, `quantize_from_probs2` in float32 returns a vector that is not the
  closest one (`floatQuantRow_differs`); the difference is bounded.
- `logprob` of an ordinal value is minus infinity if the power of a probability
  underflows (`floatLogprob_ordinal`).
- `estimate_tree` shifts the logits in float32. Logits that differ by less than the
  spacing of floats at the largest one become equal, and the tree can be worse than
  the best one by 1 (`floatEstimateTree_not_max`).
- The edge logits are differences of large float32 sums. From a sum of 2^24 on they
  are even integers; 2^21 rows are enough (`edgeValue_coarse`, `floatEdgeLogits_coarse`).

Data format:

- `load_schema` raises ValueError on every groups row
  (`loadSchema_groups_raise`). Behind that error is another: a group that has a feature both as source and
  as target would give its logit to the edge from feature 0 to the next feature, or raise (`treePriorOf_loop`). Repeated feature names: the last index wins.
- `guess_schema` lists files that do not contain the feature as its sources
  (`guessSchema_sources_wrong`). `most_common(20)` cuts before `MAX_CATEGORIES`
  is tested, so that test never fires. Guessed ordinals may have lo = hi.
- `load_data` of a csv file with a header and no rows raises ZeroDivisionError
  (`loadData_no_rows`). Repeated headers can put two observations in a block
  (`loadData_repeated`).
- An ordinal with one possible value is lost by export
  (`exportRows_importRows_lost`) and counts as never observed.
- `load_data` normalises cells; `import_rows` does not.
- csv files are opened without `newline=''`, so a carriage return in a field is
  read back as a line feed (`read_write_cr`).
- One field of more than 131072 characters makes a csv file unreadable (`readL_iff`, `readL_write`); a quote that
  is not closed has this effect in a large file (`readL_open_quote`).
- `pd_outer_join` discards the result of a rename. A column whose name ends in
  `_JOIN_` can be lost or trip the assertion (`pdOuterJoin_loses_column`,
  `pdOuterJoin_reserved`).

Configuration and validation:

- `serialize_config` of a negative value cannot be read back
  (`roundtrip_negative_fails`).
- `read_param_csv` assumes 4 folds if no `model_ensemble_size` is given while
  the default of that option is 8 (`readParamCsv_default`,
  `crossValidation_default`). `profile.eval` gives no such option, so it never holds out half of the
  folds (`profileEval_runs`). It ignores its argument `cats`, and without rows it raises ValueError after
  training (`profileEval_empty`).
- No code checks the seed. A negative one, or one near 2^32, is only rejected by
  `np.random.seed` when training starts, in a large ensemble after members have
  been trained (`seededEnsemble_badSeed`). Member i of an ensemble has seed
  `seed + i`, so ensembles with neighbouring seeds share all models but one
  (`seededEnsemble_overlap`).
- `np_printoptions` has no `try`/`finally`: if the body raises, the changed print
  options stay (`npPrintoptions_leaks`). `tempdir` and `in_tempdir` do it right.
- `fingerprint`, and so `make_seed`, overwrites `/tmp/v1.json` and prints a line, a
  leftover of debugging; it raises where that file cannot be written
  (`makeSeed_spec`, `makeSeed_unwritable`).
- `process_eval_task` counts never-observed features as fully observed, which
  inflates the denominator of the L1 loss (`unobserved_full`).

- `generate_dataset_file` and `generate_model_file` put one digit of the rate in
  the name, so another rate with the same tenth gets the cached file
  (`generateDatasetFile_stale`).

Plotting:

- `contract_positions` adds with `new[tails] += ...`. Numpy applies that once for
  each vertex, so a vertex with several edges on one side is pulled by the last
  of them only (`contractPositions_spec`, `contractPositions_hub`).
- `plot_circular` of a model with one feature fails an assertion unless
  `contract=0` (`plotCircular_single`).
- `layout_tree` passes `eigvals=[1, 2, 3]`; scipy unpacks two numbers and raises
  (`layoutTree_raises`).
- `add_panning_to_svg` recognises `<svg ` but not `<svg>`, and then closes a group
  that was never opened (an example in `Props/PlottingMore`).

Tests:

- `assert_equal` is not transitive, as numpy compares an array without dimensions with
  every element of the other (`assertEqual_not_transitive`), refuses a `nan` on its own
  though it accepts one in an array (`assertEqual_self`), and ignores `dtype`s and,
  inside lists, types of numbers.

Compilation:

- `util.py` falls back to `no_jit` with a warning when numba cannot be imported, but
  `structure.py:9` imports numba unconditionally, so the fallback is never of use
  (by reading; imports are not modelled).

## Trusted base

1. Lean's kernel, and the axioms `propext`, `Classical.choice` and `Quot.sound`.
   No theorem depends on any other axiom.
2. The definitions of Mathlib that occur in statements (reals, `Real.exp`,
   `Real.log`, `Real.Gamma`, finite sums, Lebesgue measure, permutations).
3. The reading of the Python code, recorded definition by definition in
   `Verif/Model` with file and lines. Nothing was executed: the dependencies of
   the project are not available here.
4. Contracts of libraries, each a hypothesis or an instance, never an axiom:
   - `MstContract`: scipy's `minimum_spanning_tree` returns a spanning tree of
     least weight (`exists_mst` shows it can be met). It also receives a matrix
     with zero entries for absent edges, as the code builds it.
   - `Choose (Expect K)`: indices are drawn with the probabilities of their
     weights. C12 derives this for `sample_from_probs` from one uniform draw.
   - `Shuffle (Expect K)`: numpy's shuffles are uniform.
   - the multinomial split of the ensemble is a sequence of independent draws.
   - in C106 and C109 the members of an ensemble, trained with consecutive seeds, are independent.
   - `np.testing.assert_array_equal` (C108) compares shapes and elements as stated in `Model/AssertEqual.lean`.
   - `Rng` (C87): a generator is a function of its state; `seed` sets the state, and a
     permutation is a permutation. `np.random.seed` accepts unsigned integers of 32 bits.
   - `FreshDirs` (C88): `mkdtemp` picks a name at and below which nothing exists.
     `sha1` returns hexadecimal digits.
   - pandas (C40, C91): `set_index`, `join`, `fillna`, `sort_index`, `read_csv`, `to_csv` as
     stated in `Model/Join.lean` and `Model/JoinCsv.lean`; the order of rows is not modelled.
   - `Splits` (C90): the numbers drawn by `np.random.multinomial` add up to the number of
     trials; one for each probability. The check of the probabilities is modelled.
   - `Randint`: numpy's seeded `randint` returns an array of the requested shape
     with entries below the bound, as a function of its arguments.
   - `Lawful`: laws of `str.lower` (idempotent, keeps and creates no white
     space, ...). They were checked against CPython's `str.lower` on samples; the
     ASCII instance is proved to satisfy them.
   - `multiprocessing.Pool.map` splits its input in chunks which finish in any
     order, after CPython's MapResult.
   - CPython's csv reader and writer (dialect excel) as a state machine. The
     model was run against CPython's module on 1500 random reads and 1500 random
     writes, with equal results. `isSpace` was compared with `str.isspace` on
     all code points.
   - `pickle` and `jsonpickle` restore the object that they stored; a file written
     by one cannot be read by the other. Text files are read as utf-8.
   - numba's `prange` runs each iteration once, with private local variables and a
     shared `edge_logits`; its steps interleave in any order.
5. Exact arithmetic, except in C63 to C65, C68 to C77, C79 to C85. Every float is an element of an ordered field or a real;
   `exp`, `log` and `gammaln` are the real functions. Rounding, overflow,
   underflow, `nan` and `inf` do not exist in the model. C94 adds the logit `-inf`:
   `WithBot K` with `⊥` for `-inf`, and `none` for an array of nan (numpy's default error state, in
   which nan comes with a warning; the tests make it raise). There scipy is assumed to read an
   infinite entry as a missing edge and to return a forest when the graph is not connected (`MstForest`).
   In C95 the indices inside `sample_tree` are those that `sample_from_probs` can return; all other draws are arbitrary.
   C63 rounds to nearest, ties to even; the model's rounding was run against
   CPython's floats on 2000 random numbers, with equal results.
   C64 and C65 store float32 after computing in float64 or float32; overflow cannot
   happen, as every message is proved to be at most 2^50. `np.dot` of float32 may
   add in any order (`DotOk`: a nonnegative float32 that respects bounds on the
   products which are powers of two). A quotient by zero is a value of its own.
   C68 assumes in addition that `np.sum` of nonnegative float32 is at least every
   summand and respects such bounds (`SumOk`), that powers with exponents 0 and 1
   are exact, and that the logarithm of a positive float32 is at most 104 in
   absolute value (it is at most 103.3). `numpyServe_ok` shows that these can be met.
   C70 and C72 assume in addition (`ServeOpsNear`) that `np.sum` of n numbers is exact up to
   the factor (1 + 2^-23)^n, `np.dot` of M products that do not underflow up to
   (1 + 2^-23)^(M+1), and `np.log` up to an absolute error. `numpyServe_near` shows that
   these can be met. That no message underflows is a condition on the run
   (`noUnderflow`), checked by executing the model, not a condition on the model's counts.
   C71 and C72 assume that `np.sum` of n nonnegative float32 is exact up to (1 + 2^-23)^n, also
   for small numbers (`SumClose`, met by `seqSum_close`), and that `1.0 / resolution`
   is converted to float32 before it is subtracted, as numpy did before version 2.
   C73 assumes of `np.exp` only `ExpOk`: exact at 0, float32 results that are not negative, and
   absolute error at most eta; the sum that is compared with 0 is exact.
   C74 assumes that `minimum_spanning_tree` is exact on the float weights it is given.
   C75 assumes of `gammaln` the error gamma (`GammalnOk`) and of `np.sum` the bound that
   holds for every order of summation (`SumAbsOk`); `exists_gammalnOk` and `sumAbsOk_foldl`
   show that these can be met. C74, C75 and C76 assume that nothing overflows. C77 assumes that no inward message underflows (`Spec.rowClear`), which is checked on each input; without it the statement is false (`floatAddRow_hub`).
   C79 has the assumptions of C70 and that no message underflows (`Spec.sampleClear`); without it the statement is false (`floatSample_hub`).
   C80 has the assumptions of C76 and C77, except that underflow is not excluded but counted: the bound contains the expected number of underflows. It is zero if `Spec.FewBits` holds (`floatAddRow_clear`): with M = 2^j clusters, counts plus priors at most 2^n and V features, `(V - 1)(n + j + 3) + 3n + 2j + 3 <= 85`, for example 5 features, 100 rows and 4 clusters. The random numbers of `add_row`
   are `np.random.rand`, uniform multiples of 2^-53.
   C83 and C84 assume that sums of n numbers have an error of at most n u times the sum of the absolute values,
   that `scipy.special.entr` has an absolute error eta, `np.exp` a relative one, and that `np.sqrt` of a negative number is `nan`
   (`CorrOk`, `EntropyOk`, `ExpRel`; met by `numpyCorr_ok`, `seqEntropy_ok`). The counterexample of C83 sums from left to right, which numpy does for less than
   8 numbers, and assumes that `log` rounds a value with a relative error of at most 2^-56 (`GoodLog`; glibc claims less than 0.52 units in the last place) and
   that `exp` is correct up to one and a half units (`GoodExp`).
6. Fixed width integers wrap only where the model says so (`wrap8` for int8
   cells, int32 edge ids); elsewhere they are unbounded.

Not modelled: numba, numpy internals, permissions and failures of files, gzip, pickle and json encodings,
locales, the operating system, subprocesses other than what they compute,
how matplotlib and networkx draw, what the tools that profile.py starts print, logging.

## Mutation tests

`seeded/LOG.jsonl` has one line per edited model: the definition, the edit, the
claim it breaks, the theorems that then fail, and the theorems tightened because
they did not. A build is stopped 45 seconds after the first theorem fails, so the list
of failing theorems is not complete, and a failing theorem may be a lemma on which
the theorem of the claim depends.
