# Formal model of pystreed (STreeD) in Lean 4

The code in `/repo` was read as text. It was never built or run. Everything below is
about a hand-written Lean model; the only link between the model and the code is the
reading, so every model definition cites the file and lines it was written from.

## Trusted base

* Lean 4.33.0's kernel, and Mathlib modules imported one at a time.
* Axioms: at most `propext`, `Classical.choice`, `Quot.sound`. No own axioms, no `sorry`,
  no `native_decide`, no `bv_decide`.
* The reading of the code (comments cite lines).

## Conventions

* Integers are `Int`/`Nat`. Overflow is excluded by an explicit hypothesis (total cost is
  smaller than the `worst` value INT32_MAX) and never silently.
* `INT32_MAX` as "no feature" and "no label" is `none`.
* Loops are folds or structural recursion; recursion over the depth takes a fuel argument.
* The clock is an oracle `Nat → Bool` (answer of the i-th time check).
* Doubles are exact rationals (reals where a logarithm or a square root occurs). Rounding,
  overflow, infinities and not-a-number are not modelled, except where a definition says so
  (a division by zero is then the outcome `none`). Tolerances in the code (`1e-4`, `1e-6`) are
  part of the model where they occur in a comparison; the optimality theorems for totally
  ordered tasks have integer values, where they do not matter.
* Undefined behaviour (null pointer, index out of range, use of a destroyed object, division
  by zero of integers) is a separate outcome (`none` or `undef`), never a default value.
* Specification (`Verif/Spec.lean`) is separate from the model: trees, their cost on a
  dataset, admissibility (depth, nodes, leaf size), optimality.

## Plan per property

| id | model | proof |
|----|-------|-------|
| C01 | whole search: `solve`, `solveSub`, general case, depth-two solver, both caches, similarity archive | cache-soundness invariant, induction on depth; result equals the minimum over all admissible trees |
| C02 | same model, terminal off: proved; terminal on: violated (early break) | witness by `decide`, `_partial` for terminal off |
| C03 | same model | witness by `decide` (feature pre-filter; similarity), `_partial` for similarity and terminal off |
| C04 | `solve` with all-trees | witness by `decide` |
| C05, C06 | reconstruction | induction on depth using the cache invariant |
| C07 | clock oracle | monotone clock: final check true implies all true |
| C08 | corollary of C01 | two runs both equal the minimum |
| C09, C10, C11 | branch cache, dataset cache with iterator memo, facade; for C11 also a search whose nested calls watch the caches | refinement / invariant over operation lists; watching the caches never changes the search |
| C12 | branch codes | sorted insertion is canonical |
| C13, C14, C15, C16, C34 | triangular index, counters, cost storage, difference | arithmetic, induction on data |
| C17 | terminal solver | case analysis; two-node budget violated by a witness |
| C18, C19 | similarity bound, worst-case values per task | tree surgery for empty leaves; witnesses where it fails |
| C20, C21, C54 | arithmetic of bounds and budgets | omega / nlinarith |
| C22, C23, C24 | container | invariant over insertion lists; for C23 with fairness keys also a witness |
| C25, C26 | preprocessing | tree transformation preserving cost |
| C27, C28, C29 | data splits | list partition lemmas |
| C30, C32 | tuning and result set | fold invariants |
| C31 | heap | multiset + heap-order invariant |
| C33, C35 | feature vector, bitset | representation invariant |
| C36 | equivalent points | sum over groups |
| C37–C45 | tasks | algebra over Int/Rat |
| C46, C47 | call histories | state machine |
| C48, C49, C50 | reader, binariser, parameters | list functions |
| C51 | sparse objective | parts proved, violations by witness |
| C52 | normalisation | division by zero as distinct outcome |
| C53 | trees | induction |
| C55 | fronts, construction of their trees | soundness invariant over all options; witnesses with the depth-two solver |
| C56 | survival leaf over the reals | calculus of `x - log x` |
| C57, C58 | linear leaves, coordinate descent | completing the square; monotonicity of each step; witnesses |
| C59, C60 | search with fronts, all options | soundness for every option; completeness invariant without bounds; witnesses with bounds |
| C61 | construction of the tree from fronts | induction on the depth: a value that cannot be improved is found again among pairs of children |
| C62 | caches of fronts, sequences of calls | induction over the calls: one entry per budget, the first stored front |
| C63 | `fitTree` with a node limit, `ConstructOptimalTree` | invariant of the dataset cache through the search (depth at most three): every subproblem of a solution is answered with at most the size recorded for it; without caches by induction over the construction |
| C64 | the clock of the search model: an answer per check, and the count of checks made | induction over the recursion: a failed check ends every enclosing loop after at most one further check each, so the bound is 3·max_depth + 5; the work between two checks (one depth-two solve, one pass over the data) and the construction of the tree are not counted |
| C65 | the search once more, with the tolerant comparisons used for doubles, on costs in units of a common denominator; the instance cost-sensitive task with its own similarity bound | lockstep: while all values stay below 10⁴ units the tolerant and the exact comparisons agree at every place where they are made, so the run is the exact run; optimality then follows from the search theorem; a kernel-checked witness for larger costs |
| C66 | the search once more with prices of tests that depend on the path, including caches keyed by path, the depth-two solver and its memory; the cost tables of the cost-sensitive task; preprocessing | invariant of the search in which every stored value refers to a path; the reuse of depth-two results is harmless where paths to the same data agree on the prices, which holds up to depth three if no two features split the data alike and at any depth without groups; kernel-checked witnesses for the other cases |
| C67 | the lower bound of cost-complexity regression with its cache per branch, and the part of `Ckmeans.1d.dp` it calls: running sums, both ways of filling a row of the table (divide and conquer, SMAWK), the loop that stops early | costs of runs satisfy the quadrangle inequality; best cuts are monotone; the divide-and-conquer row is exact; SMAWK rows are exact from the first column where something is left to gain, which is all the loop reads; gains shrink with the number of clusters, so stopping early is right; arbitrary clusters are no better than runs |
| C68 | cost-complexity regression: merging by features, the price of a node, and the search with the equivalent-points bound or (at depth one) the k-means bound; leaf values range over the means of all parts of the targets | the cheapest of these values costs what `SolveLeafNode` and `ComputeD2Costs` return; trees cost the same on merged and unmerged data; the search theorems then apply in units of a common denominator; a kernel-checked witness for the default bound |
| C69 | the same search with tolerant comparisons (`Tol.solve`), instance costs, penalised errors and regression | every value kept by the search is a lower bound up to a power of 1.0001; the exponent is a rank that decreases along the recursion (levels without dataset caching, varying features with it), and with lower bounds also along the limits a bound was stored under; the top-level runs add one |
| C70 | the search for a prescriptive policy (`fitPolicy`): costs of `InformTrainData` in a common unit, worst values per label, `INT32_MAX` as worst value | the unit costs are the costs of C44, whose order is that of the estimated values; then the exact and the approximate search theorems; a witness for costs above the worst value |
| C71 | `predict_proba` and its recursion (`predictProba`): index arrays, the bit inversion, the leaf counts and the assertions as errors | induction on the tree: the given rows end up with the frequencies of their leaf, other rows are untouched; optimal trees have majority leaves by relabelling; witnesses for the F1 task and for labels with gaps |
| C72 | `treeString`, `printTree`, `predicateText`, `shownNumber`, `exportDot`, `exportSession` on lists of characters and lines | injectivity by induction with a rest; the numbers of graph nodes are an injective function of paths; reading the graph as an inductive relation equals prediction; witnesses for close thresholds, names with `<=` and kept colours |
| C73 | data frames as lists of columns: `columnTypes`, `binariseFrame`, `moveFirstFrame` (in place), `moveFirstArray`, `fairFit`, `measured` | the first binary column comes first after binarisation; list lemmas for pop and insert; general theorems for the columns and positions where another column is measured |
| C74 | the dictionary and the search of the Python baseline (`pyHazardDict`, `pyBaseline`), predicted functions over the reals (`chfRow`, `survRow`, `riskScore`) | the dictionary has increasing keys and Nelson-Aalen values; its search is the C++ search shifted by the tolerance; agreement when no event follows within the tolerance, a witness otherwise |
| C75 | the leaf labels of `fitTree`; `inLeaf` counts the training rows of a label in the leaf of a row | invariant on all solutions in the caches and archives (`BestLabel`, `QB`): a leaf solution has the smallest leaf cost of its own data; carried through reconstruction and the undoing of the flips |
| C76 | the trees returned by the tolerant search (`Tol.returned`; `fitCostsTree`, `fitPolicyTree`, `fitPenalisedTreeTol`, `fitRegressionTree`), with caches, depth-two reconstruction and the clock | soundness of reconstruction with tolerant comparisons: the cap passed down is never below the value of the cached solution; then flips, sorting and merging are undone; for regression the least squared error forces the mean |
| C77 | the state that `HyperSolve` leaves between its two initialisations (`tunedFit`), with views compared by ids | the merged view equals the original one exactly if the rows were in id order and no feature vector repeats; totals are kept by merging; witness |
| C78 | the rows fetched by id after merging (`tuneFolds`) | fold over the merging loop: the kept id is that of the first row of its group; with C29; witness |
| C79 | the `regression` task (`fitPlain`, `fitPlainTree`): leaf sums, the depth-two leaf, all rows under one label; leaf values range over the means of all parts of the training set as for C68 | instance of `tol_returned`, `search_within` and `search_exact`; the mean is the best constant, so the reported value is the squared error |
| C80 | the zero test of the depth-two solver (`updateCostsZ`), the cached statistics with it, and the whole fit for at most three nodes (`fitCostsShallow`) | the statistics are those of the costs without the tiny ones, however they are updated; if all costs are tiny the first label wins; scaled witness; partial: equal to `fitCosts` when no cost is tiny |
| C81 | `get_column_types`, `Binarizer.fit` and `transform`, `predict` on frames of named columns (`predictFrame`) | the transformation looks up the names it was fitted with; it commutes with picking rows |
| C82 | `_get_continuous_columns` with the state it keeps, `LinearModel::Predict` | partial: after a first fit with names or detected columns, by induction over the predictions; negations for a second fit and for columns given as values |
| C83 | the loop of `NumpyToSTreeDData` over class labels, with its unsigned comparison | partial: induction over the rows, labels not negative; negations: undefined behaviour for `-1`, an exception below |
| C84 | the search with a model fitted in every leaf (`custom_leaf`, `expensive_leaf`), instantiated for lines; costs in units of `1 / q` with the comparisons of doubles | limits and cost: proved for all options; the tree built afterwards exists and is legal; near-optimal: partial, without lower bounds, up to the factor `1.0001 ^ (nF + 1)`, and `1.0001 ^ ((nF + 1) (d + 1))` for the tree built; negation with default options |
| C85 | the search of C84 instantiated for penalised linear models, where a group of rows may have no model | limits and cost: proved for all options; existence and near-optimality: partial, if every large enough group has a model; the similarity allowance covers every leaf: partial; negation: equal targets give no tree, groups with equal targets cannot be leaves, and the default bounds miss the best tree |
| C86 | the survival search: hazard ratios of all parts of the data as labels, the logarithm a rational function below the tangents of the real one | limits and reported loss: proved for all options; existence: proved; near-optimality of the searched loss: partial; such functions exist arbitrarily close to the logarithm: proved; negation: the reported loss can be worse than that of a single leaf |
| C87 | the attributes that `fit` stores step by step, and what `predict`, `is_fitted` and `get_tree` read (`Est`) | after a successful call: proved for every history; consistency of histories without late exceptions: partial; negations: a new estimator is "fitted", a call without a tree keeps the old tree, a call that raises mixes the old tree with new thresholds or makes predictions undefined |
| C88 | the arguments that the subclasses pass to the base class (`EstKind`) | partial: five estimators; negations: two raise, one ignores the argument |
| C89 | loading of new rows, the walk of `ComputeTestScore` over label groups with flips, test scores of four tasks, `predict` with equality of opportunity (`accTest`, `f1Test`, `gfTest`, `eoTest`, `questionLength`, `eoPredict`) | accuracy and question length for all trees and rows; F1 if a row is positive, fairness if the groups are as large as in the training data: partial; negations for all trees: little data counts as fair, much data as unfair, data without positive rows and every `predict` with equality of opportunity read out of range, a leaf counts as a question |
| C90 | test walk with branching costs and contexts, leaf costs and final scores of cost-sensitive classification, instance-specific costs, policies, plain and cost-complexity regression (`csTest`, `icTest`, `ppTest`, `rgTest`) | regression: mean squared error for all trees and rows; instance costs: exact total; cost-sensitive: average over standard cost when that is not zero and the matrix covers the classes: partial; policies when best treatments are given: partial; negations for all trees: total instead of average, treatment 0 taken as best when none is given, division by zero for one class and free features, out-of-range read for a new class |
| C91 | the search for partially ordered tasks with every time check (`tSolve`, `tReturned`); the construction of trees afterwards is that of `ParetoTree`, since the stopwatch is off then | soundness by induction for every clock; simulation of the search without limit as long as no check fails; bound on the checks after the limit by induction; kernel-checked witnesses that the returned tree has the label `INT32_MAX` after a time-out, since incomplete fronts are cached as optimal |
| C92 | test walk on numbers with the leaf costs of lines (`lnTest`), linear models (`pwLeafV`) and survival (`svLeafV`, hazards of the training data) | exact value of the score for all trees, flips and rows; with lines it contains the ridge penalty of every leaf, so the property holds without penalty and fails for every tree with a slope otherwise |
| C93 | leaf memory of the linear task (`LeafMemo.call`), runs as sequences of leaf calls that begin at the root (`LeafMemo.runs`) | induction on calls: the memory is empty or holds the fit of its own branch in this run; the first call of a run is for the root and overwrites the memory; witness that a run not starting at the root would reuse a stale model |
| C94 | differences and hash codes with their C++ types (`f1Diff32`, `fairDiff32`, `fairHash`, `none` = undefined), checked adding and bound subtraction (`addOrMergeChk`, `subtractUBsChk`) | exact differences for all trees on up to 46340 rows (46341 fails); containers of such values never leave the range; but the extreme points put into upper bounds do: general lemma for full containers, witnesses from trees on 20 rows; the hash code of `worst` is undefined |
| C95 | loop that joins rows, labels and extra data (`Rows.load`, `none` = out of range) under the checks of each estimator | induction on rows: exact outcome of `fit` and `score` for all lengths; holds for all tasks except linear leaves with columns given as values; exact condition for undefined behaviour there and in `predict` with extra data |
| C96 | `_check_data` of the policy estimator on an array given as rows of rationals (`ppgCheck`, `none` = exception), accesses of `InformTrainData` (`ppgInRange`) | reading the documented columns gives back the records if all treatments occur, or after a fit with all of them; otherwise the array is refused or, if n of 2n+1 treatments occur, misread |
| C97 | labels of the data view (`viewLabels`, `trainLabels`) from `np.argmin` of the costs and from historic treatments, then the searches of C65 and C70 over these labels | exact set of labels considered; a run finds the least cost over them; all labels are considered iff the last one is cheapest for some row; witness that a better label is missed; treatments above the historic ones are never given |
| C98 | hash functions on bit vectors, `unordered_map` with buckets (`HMap`; place in a bucket and moment and result of rehashing are free), keys with a remembered hash | invariant over all histories: a lookup gives the last value stored under an equal key; this is also what the association lists of the search models give; the hash of a branch with two or more decisions shifts a negative `int`, undefined in C++17 |
| C99 | settings of every estimator class (`PySettings`), the tests of scikit-learn, the assignments of `_initialize_param_handler` through the bindings to the handler of C50, `CheckParameters` | exact outcome for settings in range: the process ends iff the time limit exceeds the largest 32-bit integer or fewer nodes than the depth allows meet a price per node; otherwise every setting is passed on as given; a default regressor with `max_num_nodes` below seven ends the process |
| C100 | what the binariser remembers (`ColumnMemory`), selection by name or position, the moved and unmoved columns of the fairness classifier, rows, tree and question length | features of a data frame do not depend on the order of its columns nor on further columns; all methods of the fairness classifier agree on data frames and for sensitive column 0; witness on an array: the question length is computed on the wrong columns |
| C101 | flips and disabled features computed from all rows of the dataset (`prepAmong`), search and tree on the training rows, test view and test walk (`testAmong`) | for tasks that may use every feature the optimum of the training rows is kept whatever other rows there are (`prep_forward`, `prep_backward` for sublists); legal trees test no disabled feature, so the test score is that of the tree on raw rows; witness with a sensitive feature: one test row changes the optimum |
| C102 | the survival estimator over a list of `fit` calls (`SurvEst`): stored baseline and times next to the attributes of the base class of C87 | invariant over the list of calls: tree, binariser, hazard ratios and baseline are of one call if no call raises late; witness: a call with a parameter out of range keeps the tree and replaces the baseline |
| C103 | the cost file (`readCosts`), the flat tables of `Initialize` (`CostTab.build`) and the reads by the task (`price`, `leafRead`, `evalRead`), with `none` for reads outside | invariant over attributes and features: tables equal the functions of C38; index of a pair is one-to-one; every tree then has the value of `costs_tree`; a written file is read back; witnesses: features without a price, gaps, reversed and negative ranges, short matrices and rows, blank lines, a missing file |
| C104 | `_check_data`, `InformTrainData` and the leaf costs over vectors of any lengths, `none` for an exception (`startVecs`, `vecCost`, `scoreVecs`) | exact condition for a refusal; afterwards every read during the search succeeds, and totals are sums over the rows, by induction on the tree; the same for `score`; an empty list passed to `CostVector` is undefined |
| C105 | the classifier over a list of `fit` calls (`ClfEst`): number of classes, training rows and the attributes of the base class of C87; `predict_proba` of C71 | state after a call that found a tree, without a tree, and refused with the same number of classes; sequences without raised calls; witnesses: after a call refused for a parameter `predict_proba` raises or has one more column, after a call that raised in the solver it counts the new rows |
| C106 | `_color_brew`, the texts of fill and line colours, and `_get_branching_color` in exact arithmetic (`colorBrew`, `fillText`, `branchText`) | colours as a function of 360 integer hues, one-to-one by evaluation of all of them; texts read back by a separate reader; strength between 0 and 1 for all costs by sorting; pigeonhole for more than 360 classes; witness: a node without costs for its best class is white |
| C107 | `_recursive_export_dot` with `_split` and the titles of the pictures (`plotTitles`), on the tree returned by a call with cost vectors (`fitCostVectorsTree`) | numbers of nodes are one-to-one (C72), so each node has one title, of the rows that pass it; best labels of leaves of C76 with the labels considered of C97; witness: the class that the search never tries is shown |
| C108 | the instance-cost-sensitive classifier over a list of `fit` calls (`VecEst`): number of classes next to the attributes of the base class of C87; `score` with the checks of C104 | state after a call that found a tree, without a tree, refused costs, refused parameters with the same number of classes; sequences without raised calls; witnesses: a refused call with more classes |
| C109 | the classifier with its kept list of colours over a list of `fit` and `export_dot` calls (`DrawEst`), leaves drawn from left to right (`drawLeaves`) | induction on the tree for the answer and the list kept; exact condition of a graph with a kept list and for the first graph; invariant on the kept list over all calls with one number of classes; witnesses: more classes, fewer classes, a gap in the labels |
| C110 | the bars of `_export_bar_plot` (`plotBars`): a stable sort of average costs, cut to four and reversed, next to the title of C107 | the head of a stable sort is the first of the least; sublists of sorted lists; the best label of `np.argmin` is the first of the least (C97) |
| C111 | the policy estimator over a list of `fit` calls (`PolEst`): number of treatments next to the attributes of the base class of C87; `score` with the arrays of C96 | state after a call that found a tree, without a tree, with a refused parameter; documented arrays with and without the columns for tests; sequences without raised calls; witness: a refused call with more treatments |

## What is modelled

The Lean files under `Verif/Model` follow the code function by function. `Verif/Props` holds the property
theorems, `Verif/Lemmas` what they need, `Verif/Spec.lean` the specification.

| code | model |
|------|-------|
| `solver.cpp`: `Solve`, `SolveSubTree`, `SolveSubTreeGeneralCase`, `SolveLeafNode`, `SolveTerminalNode`, bounds, budgets (totally ordered tasks, integer values) | Solver, Fit, Penalised |
| the same with the comparisons of doubles (`optimization_utils.h`); labels considered in a call from Python | Tol, InstCosts; LabelRange |
| the same with path-dependent prices (`cost_sensitive.cpp`, `BranchContext`) | CostSearch, CostFit |
| the same for partially ordered tasks | Pareto, FairSearch, ParetoTime |
| `ConstructOptimalTree` of solver and depth-two solver | Reconstruct, FitTree; ParetoTree |
| `HyperSolve`, `InitializeSolver`, `SolverTaskResult`, `DefineTuneRunConfigurations` | ResultSet, Tuning |
| `PreprocessData`, flips, `TestPerformance`, `Predict` | Preprocess, TreeObj, Session, TestScore, TestCost, TestLine; TestRows (`main.cpp`) |
| `terminal_solver.cpp`, `cost_combiner.cpp`, `cost_storage.cpp`, `counter.cpp`, `difference_computer.cpp` | Terminal, Counts, Difference |
| `branch_cache.cpp`, `dataset_cache.cpp`, `cache.cpp`, `cache_entry.h`; hash functions of `branch.h`, `data_splitter.h`, `dynamic_bitset.h`, `data.h` | Cache, CacheHistory, ParetoHistory, IterMemo; HashMap |
| `similarity_lowerbound.cpp` | Solver, Pareto |
| `feature_selector_gini.cpp`, `key_value_heap.cpp` | Heap |
| `container.h`, `optimization_utils.h`, `node.h` | Node, Front, FrontUB, Pareto, IntRange |
| `branch.cpp`, `feature_vector.cpp`, `data.cpp`, `data_splitter.cpp`, `dynamic_bitset.h` | Node, FeatureVec, View, Folds, BitSet |
| accuracy, cost-complex accuracy, F1, group fairness, equality of opportunity | Tasks, EquivPoints, Penalised, PenTree, RealTree, Pareto, FairSearch |
| cost-sensitive, instance cost-sensitive, prescriptive policy | CostSensitive, CostTable, CostVecs, InstCosts, Tiny, Policy, PolicyFit, RealTree |
| regression, cost-complex regression, simple and general piecewise linear regression, survival | Regression, RegFit, PlainReg, RealTree, KMeans, SimpleLinear, PwSearch, PwTree, PwGlm, LinearLeaf, Glm, Survival, SurvFit, LeafMemo |
| `Ckmeans.1d.dp.cpp` (dynamic stop), `fill_log_linear.cpp`, `fill_SMAWK.cpp`, `within_cluster.h` | KMeans |
| `parameter_handler.cpp`, `define_parameters.cpp`, `file_reader.cpp` | Params, ParamTable, PySettings, Reader, ReaderX |
| `base.py` (which solver a call uses, what a call of `fit` stores, `print_tree`, `export_dot`), `utils.py` (`_color_brew`), `bindings.cpp` (lifetime of data, numbers of rows), `binarizer.py`, `classification.py` (`predict_proba`), `group_fair.py` (sensitive column), `survival_analysis.py` (predictions), `regression.py` (columns of linear leaves), `prescriptive_policy_generation.py` (arrays), `tree.h` (`ToString`) | Session, Estimator, Binarizer, Columns, Proba, Export, Colours, LeafPlot, PlotBars, Sensitive, NewData, SurvPy, SurvEst, ClfEst, ClfDraw, VecEst, PolEst, Rows, PolicyData |

## What is not modelled

* Rounding of doubles; `DBL_MAX` arithmetic.
* Wall-clock time: the clock is an arbitrary oracle. Statistics, progress printing, verbose output.
* Cost-complexity regression with the k-means bound deeper than one: only its
  leaf costs, depth-two costs and bounds per instance. The search with the comparisons of doubles is modelled for costs that are multiples of
  a unit, and instantiated for instance costs, policies, plain and cost-complexity regression, lines and linear models in the leaves, survival and penalised accuracy. The fit of a linear model with more than one
  feature is a parameter (`Pw.solve_spec`), and so is the logarithm in the survival search. Values within `1e-6` of
  zero, which the depth-two solver skips, are modelled for instance costs and at most three nodes (C80); elsewhere the zero test is exact.
* Layout attributes of the exports to graphviz, the sizes and fonts of the pictures, and roundings of floating-point numbers in their colours; numbers written with an exponent; the parts of `Ckmeans.1d.dp` that the regression bound does not call.
* Which lines the random selection takes (any sorted selection is covered); rounding of numbers in files.
* Python argument checking other than what decides which solver is used; numpy, scikit-learn.
* Memory allocation and hash-map iteration order. The search models use association lists with the key equality of the code, which is justified by C98.

## Findings (properties the code does not satisfy)

Each is a theorem about the model, with a concrete witness checked by the kernel. The program itself was never run.

Search and returned tree:

* `node_limit_not_optimal`, `two_not_optimal`: with a node limit the depth-two solver stops before all pairs are seen.
* `no_upper_bound_not_optimal`, `upper_bound_option_matters`: with `use_upper_bound = False` the depth-two solver still drops
  results above the bound; at depth four a wrong value is then stored and reported as optimal. Up to depth three
  the option does no harm (`optimal_depth_three`).
* `leaf_size_not_optimal`, `three_not_optimal`, `similarity_not_bound`: with a minimum leaf size above one, the depth-two
  solver and the similarity bound cut off the optimum.
* `all_trees_not_optimal`: with all tree sizes searched, the same early stop.
* `returned_not_optimal`, `options_matter`: the value found is optimal, but the tree built afterwards may be worse.
* `preprocess_not_harmless`: a feature is dropped as redundant in favour of one that the task forbids.
* `penalised_not_optimal`: complexity-penalised search at depth three.
* `regression_not_optimal`: with the default k-means bound the price of a node is counted twice; splits that gain less than two
  prices are cut off, already at depth one.
* `line_default_not_optimal`, `line_single_leaf`: with lines in the leaves and the default bounds, the lower bound of a subproblem leaves out
  its leaf. A split is only tried if the single line costs about three prices of a node or more; at the default price of 0.01 a line
  that explains 97% of the variance ends the search, although splits pay off up to 99%.
* `est_new_is_fitted`, `est_noTree_keeps_tree`, `est_raised_mixes`, `est_raised_undefined`: a new estimator reports that it is fitted; after a fit
  without a feasible tree `get_tree` and the exports show an older tree; after a fit that raises, `predict` applies the old tree to the new
  thresholds, or reads past the flipped features of the new solver.
* `declared_raises`, `declared_ignored`: the argument `categorical` makes the cost-sensitive and group-fair classifiers raise, and the
  classifier with instance costs ignores it.
* `surv_score_worse`, `surv_score_worse_real`: in the survival search a leaf without an event costs nothing, but when the finished tree
  is scored it counts one half. With the default options the returned split is reported with a larger loss than a single leaf has.
* `glm_equal_targets_none`, `glm_constant_sides`: with penalised linear models in the leaves, a group of rows with equal targets has no
  model. If all targets are equal no tree is returned, whatever the options; if a split would give two groups with equal targets, which two
  constants would fit exactly, it is not considered.
* `glm_default_not_optimal`, `glm_single_leaf`: the default lower bound misses the best tree here in the same way as for lines.
* `line_similarity_not_bound`, `line_similarity_not_optimal`: the similarity bound for lines charges a removed row at most its squared
  distance to the range of the targets, but a line may leave that range. A run with free nodes ends with cost 11.3 where an allowed
  tree fits every row.
* `costs_search_twins`: two features that split the data alike but differ in price; the cheaper one is dropped as redundant.
* `costs_search_stale`, `costs_search_unattained`: at depth four the depth-two solver reuses results of the same data on another
  path, where other tests had been paid for; the reported total is too high, or one that no tree has.
* `costs_search_bound`: the bound stored for a subproblem without a solution leaves out the leaf, which may be cheapest.
* `costs_search_dataset_cache`: results keyed by instances are reused on paths with other prices.
* `similarity_not_close`: with the similarity bound and without the depth-two solver, a run on real-valued costs can report 90 as
  optimal where a tree of cost 0 exists. The value kept of a similar subproblem may be too high by the tolerance, and a distance of
  the same size is subtracted from it, so the difference can exceed the true value by any factor.
* `real_costs_not_optimal`: real-valued costs are compared with a relative tolerance of `1e-4`; a better tree within it is missed,
  although the result is reported as optimal.
* `policy_search_empty`: policies whose costs add up to `INT32_MAX` or more are taken for infeasible; the search ends without a tree
  and reports `is_optimal`.
* `transfer_drops_answer`, `front_transfer_drops`: a transfer of cached bounds replaces an optimal answer.
* `solve_twice_differs`: a second call of the C++ solver starts from the bound of the first.
* `predict_twice_undefined`, `predict_twice_stale`: predicting twice with equal row counts reads destroyed data.
* `splitter_needs_clear`, `memo_needs_paths`, `equiv_points_cache_stale`: caches that are right only for one data set.

Partially ordered tasks:

* `f1_search_not_optimal`, `f1_general_not_optimal`, `f1_node_limit_not_optimal`, `f1_leaf_size_not_optimal`.
* `parity_search_not_optimal`, `opportunity_search_not_optimal`, `fair_extremes_wrong`: the extreme points take 1 for the
  largest group score; scores go up to 2.
* `parity_tree_tests_sensitive`, `opportunity_tree_tests_sensitive`: the returned tree tests the sensitive feature.
* `parity_tree_label_wrong`, `opportunity_tree_label_wrong`, `parity_tree_label_wrong_general`, `f1_tree_label_wrong`:
  leaves labelled `INT32_MAX`.
* `front_subtraction_unsound`, `addInvOrMerge_drops`, `fairness_front_drops`, `front_keeps_larger_tree`: operations on fronts.
* `f1_score_undefined`: zero divided by zero without positives.
* `parity_test_score_wrong`: test scores divide by the training group sizes. `score_parity_small`, `score_opportunity_small`: so with few
  new rows every tree counts as fair. `score_parity_large`, `score_opportunity_large`, `score_parity_twice`: with many, every tree has
  score 0, also on the training rows given twice.
* `predict_opportunity_undefined`: with equality of opportunity, `predict` on new rows always reads past the label groups, because rows
  without labels are all negative and the task counts the positive ones. `score_opportunity_undefined`, `score_f1_undefined`,
  `score_parity_undefined`: so does `score` without positive rows.
* `est_raised_no_predictions`: a fit whose columns the binariser refuses leaves an estimator that reports to be fitted and cannot predict.
* `question_length_leaf`: the question length counts the leaf as a question.
* `score_policy_unknown`: `score` of a policy accepts rows without a best treatment and then reports the fraction that gets treatment 0.
* `score_instance_twice`: the score for instance-specific costs is a total, not an average. `score_costs_one_class`: the score for
  cost-sensitive classification divides by zero if features are free and all rows have one class. `score_costs_new_class`: a row of a
  class that the matrix does not cover is looked up beyond its end.
* `score_lines_penalty`, `score_lines_perfect`: with lines in the leaves and a ridge penalty, `score` adds the penalty of every leaf to the squared
  errors, so that exact predictions do not score zero.
* `root_front_fair_wrong`: with fairness constraints, values within `1e-4` share a key at the root; one that violates the constraint can take
  the place of one that satisfies it. The search only inserts values that satisfy it, where this does no harm (`root_front_fair_best`).

Bounds per instance: `parity_worst_wrong`, `opportunity_worst_wrong`, `costs_worst_wrong`, `instance_worst_label_wrong`,
`regression_worst_wrong`, `regression_similarity_wrong`.

Tasks:

* `costs_diagonal_ignored`: direct and pairwise leaf costs differ for a non-zero diagonal.
* `instance_costs_negative`, `policy_no_zero`, `policy_unusable`.
* `tiny_costs_ignored`, `scale_not_free`: the depth-two solver skips instance costs up to `1e-6`. If all costs are that small (for
  example divided by a million rows), a fit with at most three nodes returns a single leaf with label 0, whatever the costs are.
* `regression_empty_leaf`, `merge_twice_wrong`, `hazard_tolerance`, `survival_leaf_no_event`.
* `glm_stop_error_partial`: the error by which penalised linear leaves decide to stop counts the squared targets once per feature used, so with
  more than one feature it is too large and the relative progress looks smaller than it is. `glm_left_out` says which features are left out.
* `linear_leaf_not_finite`, `tiny_feature_wrong`, `line_leaf_not_optimal`, `glm_refuses_constant`, `glm_refuses_flat`,
  `glm_not_optimal`.
* `equiv_points_not_tight`, `equiv_points_empty_undefined`.
* `smawk_entry_wrong`: entries of the clustering table are too large where points are equal; the bound itself is right.

Data, parameters, utilities:

* `stratified_regression_size_wrong`, `stratified_regression_undefined`, `stratified_folds_wrong_bucket`,
  `stratified_regression_folds_wrong`.
* `best_index_wrong`, `tuning_undefined`, `tuning_time_exits`.
* `tuned_price_linear`: the cost-complexity that tuning selects for piecewise-linear regression is never used in the final fit: the
  preprocessed view has the same ids as the original one, so the solver takes it for known data and keeps the old price.
  `tuned_price_wrong`: the same for cost-complexity regression and simple linear regression if the rows come in the solver's order
  without repeated feature vectors.
* `tuning_rows_lost`: for these two tasks, tuning leaves out every row whose features also occur in an earlier row (except for the last
  feature vector), because rows are merged first and the folds then fetch the unmerged objects.
* `simple_ridge_ignored`: simple linear regression reads its ridge penalty from the lasso parameter.
* `queue_not_sorted` (negative scores), `clearBit_wrong` (never called).
* `nan_accepted`, `settings_not_checked`, `text_read_as_zero`, `missing_value_undefined`.
* `timed_f1_label_wrong`, `timed_f1_label_wrong_plain`, `timed_opportunity_label_wrong`: if the time limit passes during an F1 or fairness fit, the
  returned tree may have leaves with the label `INT32_MAX`: fronts that are incomplete are stored as optimal, and the construction of the
  tree does not find the children in them.
* `letter_accepted`, `malformed_not_rejected`, `short_row_undefined`, `blank_line_undefined`, `wide_separator_undefined`,
  `long_row_cut`, `negative_label_undefined`, `real_label_undefined`, `missing_feature_undefined`.
* `missing_cost_accepted`, `missing_costs_repeated`: in files with a cost per label, a row with costs missing is accepted; missing costs
  repeat the one before and the label is read again as a feature. `costs_read_as_features`: so are costs if `num-extra-cols` is not set.
* `f1_proba_raises`: `predict_proba` of a classifier fitted for the F1-score fails its own assertion, because leaves need not have
  the majority label. `label_gap_raises`: it raises for every tree if the labels are not `0, …, n - 1`.
* `close_thresholds_printed_alike`: two thresholds of one column are shown as the same number. `named_comparison_raises`,
  `named_threshold_raises`: printing raises for columns with `<=` in their own name. `export_after_refit_raises`: `export_dot` keeps the
  colours of the first fit and raises after a fit with more classes.
* `other_column_measured`: if the sensitive column has other values than 0 and 1 and some column is binary, the fairness limit is applied to
  another column. `second_fit_other_column`: with a position and a data frame, `fit` changes the caller's frame, and the second fit is
  applied to the column before. `negative_position_keeps_column`: with a negative position the tree may test the sensitive column.
  `categorical_raises`: `fit` of the fairness classifier raises if categorical columns are given.
* `refit_keeps_columns`, `refit_ignores_data`: a second fit of the piecewise-linear regressor uses the columns of the first, though they are
  documented to be detected. `values_columns_depend_on_batch`: fitted with columns given as values, it detects columns in the batch it
  predicts; a row's prediction depends on the other rows and may read past its values. `predict_changes_columns`: columns given to one
  prediction are kept for the next.
* `label_minus_one_undefined`, `label_below_raises`: class labels `-1` (as in `-1`, `1`) are an access out of range.
* `declared_binary_is_doubled`: a 0/1 column declared categorical becomes two or more equal features.
* `baselines_differ`: the C++ baseline hazard looks a millionth ahead, the Python one does not, so a tree can be trained with other hazards
  than it predicts with.
* `f1_bound_overflow`, `fair_bound_overflow`: upper bounds contain extreme points with `INT32_MAX` errors; as soon as such a bound has twelve
  members, adding another squares a difference to that number, which overflows. `fair_worst_hash`: reconstruction of a fairness tree hashes
  the worst value, converting `INT32_MAX / 1e-4` to `int`. `f1_diff_overflow`: with 46341 rows the difference of two trees overflows.
* `line_values_undefined`, `predict_with_extra_undefined`: columns for linear leaves given as values, and costs, treatments and events given to
  `predict`, are not compared with the number of rows; fewer are read out of range, more are cut (`predict_extra_accepted`).
* `policy_array_refused`, `policy_array_misread`, `policy_gap_undefined`: the number of treatments of a policy array is counted in its first
  column. If only some treatments occur, the documented array is refused, or read with predictions as best treatment and true outcomes.
* `unused_label_missed`, `new_treatment_never_given`, `new_treatment_missed`: from Python, a search considers only the labels up to the largest
  one that is cheapest for some row (or was given before); nothing sets `num-extra-cols`, which makes room for the others. A label that is best
  for a group but for no single row is overlooked, and `is_optimal` is still true. The command line is not affected (`file_costs_optimal`).
* `branch_hash_undefined`: the hash of every branch with two or more decisions shifts a negative `int` to the left, which C++17, the standard of
  this project, leaves undefined (compilers such as GCC define it, and C++20 does).
* `regressor_ends`: `STreeDRegressor(max_num_nodes=3).fit(X, y)` with defaults otherwise ends the Python process by `exit(1)`, since the default
  price per node is not zero and `CheckParameters` refuses both together; the linear regressor and any priced task with these settings do the
  same. `long_time_ends`: so does a time limit above 2147483647, which the Python ranges allow. Nothing else does (`settings_outcome_partial`).
* `question_length_wrong`: `get_question_length` of the fairness classifier does not move the sensitive column first, as `fit`, `predict` and
  `score` do. On an array with the sensitive column elsewhere it reads the wrong columns; data frames are not affected (`fair_frame_agree`).
* `surv_bad_parameter_mixes`: `fit` of the survival estimator stores the new baseline hazard and times before the base class checks the parameters.
  If it raises, the old tree stays and its curves are computed with the baseline of the rejected data.
* `unspecified_undefined`, `gap_undefined`, `reversed_accepted`, `negative_undefined`, `short_matrix_undefined`, `missing_file_undefined`: a cost
  specification is never checked (`runtime_assert` is empty in release builds). Features or labels without costs, ranges with gaps and a cost file that does not exist
  make the task read outside its tables. `short_row_repeated`, `blank_attr_undefined`: a short row of the matrix in a file is filled up with its last
  entry, and a blank last line or a word in place of a price becomes an attribute of unset values (`bad_price_undefined`).
* `empty_vector_undefined`: `CostVector([])` reads the largest entry of an empty vector.
* `clf_bad_parameter_raises`, `clf_bad_parameter_column`, `clf_unread_mixes`: `fit` of the classifier stores the number of classes first and the training rows before it
  solves. If it raises, `predict` goes on with the old tree, but `predict_proba` raises, has a column too many, or counts the new rows in the old leaves.
* `strength_not_monotone`, `clear_choice_white`: in exported graphs of the instance-cost-sensitive classifier (without matplotlib), a branching node
  whose best class has less than a hundredth of the total costs is drawn white, like a tie, instead of in the full colour. `many_classes_share`: from
  361 classes on, colours repeat. `one_class_branch_raises`: the colour of a branching node is not defined with a single class.
* `shown_class_not_predicted`: from Python, the picture of a leaf of the instance-cost-sensitive classifier may show a class, and its costs, that the search
  never tried; `predict` returns another, dearer one (see C97).
* `vec_bad_parameter_raises`, `vec_bad_parameter_accepts`: `fit` of the instance-cost-sensitive classifier stores the number of classes before the base class
  checks the parameters. If it raises, `predict` goes on with the old tree, but `score` refuses costs for the classes of that tree and accepts others.
* `draw_more_classes_raises`, `draw_depends_on_history`, `draw_gap_raises`: the classifier keeps the colours of the first graph it exports
  (`colours_never_renewed`). After another `fit` with more classes `export_dot` raises, with fewer classes it uses other colours than a new classifier.
  With labels such as 0 and 2 it always raises when a leaf has the label 2.
* `pol_bad_parameter_misreads`: `fit` of the policy estimator stores the number of treatments before the base class checks the parameters. If it raises,
  `predict` goes on with the old tree, but `score` may read the same array as one for other treatments and give another score without a message.
* `pol_short_array`: `score` of the policy estimator accepts arrays without the columns for tests and takes treatment 0 for the best one of every row.
* `other_rows_harmful`: the command line preprocesses training and test rows together. With a sensitive feature the test rows decide whether a
  feature that equals it on the training rows is switched off, and so change the optimum. Tasks without such a feature are not affected
  (`among_optimum`).

Read in the text only, not modelled:

* `DefineBooleanParameter` looks for duplicates in the map of integer parameters.
* The lookup of cached fronts in `ConstructOptimalTree` filters a container that does not exist if its loop does not run
  (the outcome `none` of `pConstruct`).
* `ysq_sum` in `SolveGLMNet` is counted once per feature; `PostProcessTree` indexes an empty vector for the worst model.
