{"id": "C01", "title": "Optimal accuracy tree for the default budget", "statement": "When fit() of the accuracy classifier finishes and reports is_optimal, with the default node budget (max_num_nodes = 2^max_depth - 1) and min_leaf_node_size = 1, no decision tree of depth at most max_depth over the given binary features misclassifies fewer training instances than the returned optimum, and the optimum is attained by such a tree.", "quantifier": "every finite binary dataset, every label set, every max_depth, every feature order, every on/off combination of lower bounds, similarity bounds, UB subtraction, branch cache, dataset cache and depth-two solver", "why_tests_cant": "The competitor set (all trees) is doubly exponential and the pruning rules interact through shared caches; a test checks only a few datasets against a few bounds.", "anchors": ["src/solver/solver.cpp: Solver::Solve, SolveSubTree, SolveSubTreeGeneralCase, SolveTerminalNode", "src/solver/terminal_solver.cpp: TerminalSolver::Solve"]}
{"id": "C02", "title": "Optimality under an explicit node limit", "statement": "When max_num_nodes is set below 2^max_depth - 1 and the run reports is_optimal, the returned tree is optimal among trees with at most max_num_nodes branching nodes and depth at most max_depth.", "quantifier": "every dataset, every depth and every node limit", "why_tests_cant": "Which budget combinations meet which early exits depends on the data; fixed test sets only see a few.", "anchors": ["src/solver/terminal_solver.cpp: TerminalSolver::Solve (early break when the three-node solution is zero)", "src/solver/solver.cpp: SolveTerminalNode"]}
{"id": "C03", "title": "Optimality under a minimum leaf size", "statement": "When min_leaf_node_size >= 2 and the run reports is_optimal, the returned tree is optimal among all trees whose leaves all hold at least min_leaf_node_size training instances.", "quantifier": "every dataset, depth and minimum leaf size", "why_tests_cant": "The failing inputs need a feature that is too balanced to be a root but good as a child; random tests with large data and small leaf sizes rarely contain one.", "anchors": ["src/solver/terminal_solver.cpp: TerminalSolver::Solve lines 52-62", "src/solver/similarity_lowerbound.cpp: ComputeLowerBound"]}
{"id": "C04", "title": "Optimality when searching all tree sizes", "statement": "With all_trees=True the run considers every node count 1..max_num_nodes, so the final tree is at least as good as the best tree of any of those sizes.", "quantifier": "every dataset, depth and node limit", "why_tests_cant": "Each size reuses the cache written by the previous size; only a full history argument settles it.", "anchors": ["src/solver/solver.cpp: Solver::Solve lines 107-138, SolveTerminalNode lines 556-583", "src/solver/branch_cache.cpp: UpdateLowerBound, RetrieveLowerBound"]}
{"id": "C05", "title": "The returned tree respects its limits", "statement": "The tree returned by a finished fit() has depth at most max_depth, at most max_num_nodes branching nodes, only existing features and labels, and every leaf receives at least min_leaf_node_size training instances.", "quantifier": "every dataset and parameter setting of a default-budget run", "why_tests_cant": "The tree is rebuilt afterwards from cache entries which may stem from other branches and budgets.", "anchors": ["src/solver/solver.cpp: ConstructOptimalTree, Solve lines 175-191", "src/solver/terminal_solver.cpp: ConstructOptimalTree"]}
{"id": "C06", "title": "The reported score is the score of the returned tree", "statement": "The train score of the result equals the score obtained by classifying every training instance with the returned tree, and equals the optimum found by the search.", "quantifier": "every dataset and every returned tree", "why_tests_cant": "The search only stores a cost, a feature and child sizes; the tree is reconstructed from it separately.", "anchors": ["include/solver/tree.h: ComputeTrainScore, Classify", "src/solver/solver.cpp: ConstructOptimalTree"]}
{"id": "C07", "title": "Time-outs are never reported as optimal", "statement": "For any behaviour of the clock, if the result says is_optimal then no time check failed during the search and the value equals that of an unlimited run; if the limit was hit before the end the result says so.", "quantifier": "every schedule of time-limit expiry (every point at which a check can fail), every dataset", "why_tests_cant": "The expiry point is nondeterministic; a test can only hit a handful of the check points.", "anchors": ["src/solver/solver.cpp: Solve line 174, SolveSubTree line 280, SolveSubTreeGeneralCase lines 399-470", "include/utils/stopwatch.h"]}
{"id": "C08", "title": "Search options do not change the answer", "statement": "Switching caches, lower bounding, similarity bounds, UB subtraction, the depth-two solver or the feature order changes speed only: two finished default-budget runs on the same data return the same objective value.", "quantifier": "every pair of option settings, every dataset", "why_tests_cant": "The number of option combinations times datasets is unbounded.", "anchors": ["src/solver/solver.cpp: SolverParameters, SolveSubTree"]}
{"id": "C09", "title": "The branch cache answers only with facts about that branch and budget", "statement": "After any history of stores, lower-bound updates and transfers, a lookup of an optimal solution returns one only if it was stored for that path and a budget that covers it, and a stored optimal answer is never replaced by a different later store.", "quantifier": "every finite operation history on the cache, every path and budget", "why_tests_cant": "Histories are unbounded and entries are filled in for ranges of budgets.", "anchors": ["src/solver/branch_cache.cpp", "include/solver/cache_entry.h"]}
{"id": "C10", "title": "The dataset cache with its lookup shortcut behaves as a map", "statement": "Remembering the last lookups per dataset size never changes a result: every operation of the dataset cache answers as a plain map from instance sets to entries would.", "quantifier": "every finite operation history in which equal paths denote equal data", "why_tests_cant": "A stale shortcut only shows after a particular interleaving of inserts and lookups.", "anchors": ["src/solver/dataset_cache.cpp: FindIterator, InvalidateStoredIterators", "include/solver/dataset_cache.h"]}
{"id": "C11", "title": "Cached bounds stay valid", "statement": "At every moment of a search, each bound the cache hands out for a subproblem is at most the cost of every tree allowed for that subproblem, and each solution it hands out is attained by an allowed tree.", "quantifier": "every reachable search state", "why_tests_cant": "Requires an invariant over all reachable states.", "anchors": ["src/solver/branch_cache.cpp: RetrieveLowerBound", "src/solver/dataset_cache.cpp: RetrieveLowerBound", "src/solver/solver.cpp: SolveSubTreeGeneralCase lines 505-521"]}
{"id": "C12", "title": "Paths are recognised regardless of the order of their decisions", "statement": "Two paths of decisions have equal cache keys exactly when they consist of the same set of (feature, outcome) decisions, and then they select the same training instances.", "quantifier": "every pair of decision sequences", "why_tests_cant": "Orders grow factorially.", "anchors": ["src/model/branch.cpp", "include/model/branch.h"]}
{"id": "C13", "title": "Pairwise storage index is one-to-one and in range", "statement": "The triangular index used for feature-pair statistics maps distinct unordered feature pairs to distinct slots, all within the allocated array, and fills it without gaps.", "quantifier": "every feature count and every pair", "why_tests_cant": "Feature counts are unbounded; an off-by-one only corrupts particular pairs.", "anchors": ["include/solver/counter.h", "include/solver/cost_storage.h: IndexSymmetricMatrix"]}
{"id": "C14", "title": "Pairwise statistics are exact", "statement": "For every pair of features the four quadrant counts and costs derived from the stored pair statistics equal the direct counts and costs over the data.", "quantifier": "every dataset and feature pair, every label", "why_tests_cant": "Must hold for every dataset.", "anchors": ["src/solver/cost_combiner.cpp: GetCounts, CalcSols", "src/solver/counter.cpp", "src/solver/cost_storage.cpp"]}
{"id": "C15", "title": "Incremental statistics equal statistics from scratch", "statement": "After any sequence of subproblems, statistics updated by adding and removing the difference equal those computed from scratch for the current data, so the depth-two search answers independently of what was solved before.", "quantifier": "every finite sequence of data views", "why_tests_cant": "Errors accumulate along unbounded histories.", "anchors": ["src/solver/cost_combiner.cpp: Initialize, UpdateCosts", "src/solver/terminal_solver.cpp: Solve"]}
{"id": "C16", "title": "Data difference is exact", "statement": "The difference between two views lists exactly the instances of the new view missing from the old and vice versa, each once and in order.", "quantifier": "every pair of sorted views", "why_tests_cant": "Merging logic has many interleavings.", "anchors": ["src/solver/difference_computer.cpp: ComputeDifference"]}
{"id": "C17", "title": "Depth-two search is exact for every node budget", "statement": "The specialised depth-two search returns, for one, two and three branching nodes, the cheapest tree with at most that many nodes.", "quantifier": "every dataset and every budget 1, 2, 3", "why_tests_cant": "Early exits depend on data.", "anchors": ["src/solver/terminal_solver.cpp: Solve, SolveOneNode, UpdateBestTwoNodeAssignment, UpdateBestThreeNodeAssignment"]}
{"id": "C18", "title": "Similarity lower bound is a lower bound", "statement": "The bound obtained from a previously solved similar dataset never exceeds the cost of any allowed tree on the new dataset.", "quantifier": "every pair of datasets, every budget, every minimum leaf size", "why_tests_cant": "Needs all trees and all pairs of datasets.", "anchors": ["src/solver/similarity_lowerbound.cpp", "src/solver/difference_computer.cpp: ComputeDifferenceMetrics"]}
{"id": "C19", "title": "Worst-case contribution of one removed instance", "statement": "The per-label worst-case value that a task declares bounds what a single removed instance can contribute to the cost of any leaf.", "quantifier": "every task, every instance, every assigned label", "why_tests_cant": "Must hold for all instances and label assignments.", "anchors": ["include/tasks/*: GetWorstPerLabel", "src/tasks/group_fairness.cpp", "src/tasks/instance_cost_sensitive.cpp", "src/tasks/cost_sensitive.cpp"]}
{"id": "C20", "title": "Upper-bound subtraction loses no improving solution", "statement": "If a split can improve on the current best, then its first child is within the reduced bound given to it, and so is its second child.", "quantifier": "every bound, child cost and child lower bound", "why_tests_cant": "All numeric combinations.", "anchors": ["src/solver/solver.cpp: SubtractUBs"]}
{"id": "C21", "title": "Every distribution of the node budget is tried", "statement": "For a split with n nodes in total and depth d, each pair of child sizes that a tree can use is covered by one of the distributions that are tried, and each one tried fits in the budget.", "quantifier": "every depth, node budget and child size", "why_tests_cant": "Unbounded budgets.", "anchors": ["src/solver/solver.cpp: SolveSubTreeGeneralCase lines 347-348, 441-445"]}
{"id": "C22", "title": "Pareto front keeps exactly the non-dominated solutions", "statement": "After any sequence of insertions, no solution in the front dominates another, every front member was inserted, and every inserted solution is dominated by or equal to a member.", "quantifier": "every finite insertion sequence of multi-objective solutions", "why_tests_cant": "Insertion orders are unbounded and removal during iteration is subtle.", "anchors": ["include/model/container.h: InternalAdd, Add"]}
{"id": "C23", "title": "Root Pareto front keeps the best feasible solutions", "statement": "With the root comparator, after any insertion sequence each inserted solution is covered by a member under the root comparison.", "quantifier": "every finite insertion sequence", "why_tests_cant": "As above.", "anchors": ["include/model/container.h: AddD0", "include/tasks/group_fairness.h: DominatesD0"]}
{"id": "C24", "title": "Bounded fronts stay valid bounds", "statement": "When a front is compressed to a maximum size by merging members, each inserted solution is still dominated by a member (for lower bounds), and the size limit holds.", "quantifier": "every insertion sequence and size limit", "why_tests_cant": "As above.", "anchors": ["include/model/container.h: AddOrMerge, AddInvOrMerge"]}
{"id": "C25", "title": "Dropping redundant features is harmless", "statement": "Features marked redundant (nearly constant for the minimum leaf size, or duplicates / complements of an earlier feature) never change the optimal value.", "quantifier": "every dataset, minimum leaf size and depth", "why_tests_cant": "All trees over all datasets.", "anchors": ["src/solver/solver.cpp: PreprocessData lines 1157-1229"]}
{"id": "C26", "title": "Flipped features do not change predictions", "statement": "When features are negated internally and the tree is converted back, predictions on original data equal the predictions of the internal tree on the negated data, for training and test data alike.", "quantifier": "every tree, every set of flipped features, every instance", "why_tests_cant": "All trees and instances.", "anchors": ["src/solver/solver.cpp: PostProcessTree, PreprocessTestData", "include/solver/tree.h: FlipFlippedFeatures", "src/model/feature_vector.cpp: FlipFeature"]}
{"id": "C27", "title": "Splitting data loses nothing", "statement": "Splitting on a feature puts every instance in exactly one side according to its feature value, keeps order and label groups, and total weight and size add up.", "quantifier": "every view and feature", "why_tests_cant": "All datasets.", "anchors": ["src/model/data.cpp: ADataView::SplitData", "src/solver/data_splitter.cpp"]}
{"id": "C28", "title": "Train/test split is a partition of the requested size", "statement": "A train-test split puts every instance in exactly one of the two parts and the test part has the requested size, per class when stratified.", "quantifier": "every dataset, test fraction and random order", "why_tests_cant": "All sizes and rounding cases.", "anchors": ["src/model/data.cpp: TrainTestSplitData"]}
{"id": "C29", "title": "k-fold split uses every instance for testing exactly once", "statement": "In a k-fold split every instance is in exactly one test fold and in the training part of all other folds; fold sizes differ by at most one (per class when stratified).", "quantifier": "every dataset, k and random order", "why_tests_cant": "All sizes and remainders.", "anchors": ["src/model/data.cpp: KFoldSplit"]}
{"id": "C30", "title": "Hyper-tuning selects the best configuration", "statement": "The configuration used for the final fit has the best average validation score among the evaluated ones, with the documented tie-break.", "quantifier": "every number of configurations, folds and scores", "why_tests_cant": "All score tables.", "anchors": ["src/solver/solver.cpp: HyperSolve", "include/tasks/optimization_task.h: CompareScore"]}
{"id": "C31", "title": "Feature queue yields each feature once in score order", "statement": "The feature queue returns every feature exactly once, in non-increasing score order, for any scores.", "quantifier": "every list of scores and every sequence of pops", "why_tests_cant": "All heap shapes.", "anchors": ["src/utils/key_value_heap.cpp", "include/solver/feature_selector.h"]}
{"id": "C32", "title": "Result set keeps its best solution first", "statement": "After any sequence of added trees, the best index points at a best score and scores stay paired with their own tree, depth and node count.", "quantifier": "every insertion sequence", "why_tests_cant": "All orders.", "anchors": ["include/solver/result.h: AddSolution, SolverTaskResult"]}
{"id": "C33", "title": "Instance feature vector stays consistent", "statement": "After any sequence of flips and disables, the two internal representations of an instance (bit per feature, list of present features) describe the same set, and double flip restores it.", "quantifier": "every operation sequence on an instance", "why_tests_cant": "All histories.", "anchors": ["src/model/feature_vector.cpp", "include/model/feature_vector.h"]}
{"id": "C34", "title": "Feature-pair list is complete", "statement": "The precomputed pair index list of an instance contains exactly the slots of the pairs of present features, each once.", "quantifier": "every instance", "why_tests_cant": "All feature sets.", "anchors": ["src/model/feature_vector.cpp: ComputeFeaturePairIndices"]}
{"id": "C35", "title": "Dataset cache key identifies the data", "statement": "Two views have equal cache keys if and only if they hold the same set of instances.", "quantifier": "every pair of views of one dataset", "why_tests_cant": "Bit-boundary cases for all sizes.", "anchors": ["include/utils/dynamic_bitset.h", "src/model/data.cpp: ADataViewBitSet"]}
{"id": "C36", "title": "Equivalent-points bound is a lower bound", "statement": "The cost of the minority labels among instances with identical features is never above the cost of any tree.", "quantifier": "every dataset and tree of any size", "why_tests_cant": "All trees.", "anchors": ["src/tasks/accuracy/cost_complex_accuracy.cpp: PreprocessTrainData, ComputeLowerBound"]}
{"id": "C37", "title": "Accuracy task arithmetic", "statement": "The leaf cost of a label is the number of instances with another label; the pairwise statistic gives the same; the test score is the fraction of correctly classified instances, between 0 and 1.", "quantifier": "every dataset and label", "why_tests_cant": "All datasets.", "anchors": ["include/tasks/accuracy/accuracy.h"]}
{"id": "C38", "title": "Cost-sensitive task arithmetic", "statement": "The cost of a leaf is the sum of the matrix entries of its instances plus the test costs of the path, and both cost computations (direct and pairwise) agree.", "quantifier": "every cost matrix and dataset", "why_tests_cant": "All matrices.", "anchors": ["src/tasks/cost_sensitive.cpp: GetLeafCosts, GetInstanceLeafD2Costs, GetBranchingCosts"]}
{"id": "C39", "title": "F1 score from the front", "statement": "The reported F1 score of a (false negatives, false positives) pair is between 0 and 1 and the front contains a tree of maximal F1.", "quantifier": "every pair of error counts", "why_tests_cant": "All trees.", "anchors": ["include/tasks/f1score.h"]}
{"id": "C40", "title": "Demographic-parity constraint is exactly the advertised one", "statement": "A tree is accepted exactly when the absolute difference of positive rates of the two groups on the training data is at most the discrimination limit.", "quantifier": "every dataset with non-empty groups and every tree", "why_tests_cant": "All trees.", "anchors": ["include/tasks/group_fairness.h: SatisfiesConstraint", "src/tasks/group_fairness.cpp: GetLeafCosts"]}
{"id": "C41", "title": "Equality-of-opportunity constraint is exactly the advertised one", "statement": "A tree is accepted exactly when the absolute difference of true-positive rates of the two groups is at most the limit.", "quantifier": "every dataset with positive instances in both groups and every tree", "why_tests_cant": "All trees.", "anchors": ["include/tasks/eq_opp.h", "src/tasks/eq_opp.cpp"]}
{"id": "C42", "title": "Regression leaf is the best constant", "statement": "A regression leaf predicts the value with minimal sum of squared errors, its cost is that minimum, and the pairwise computation yields the same value.", "quantifier": "every multiset of targets", "why_tests_cant": "Real-valued data.", "anchors": ["include/tasks/regression/regression.h", "src/tasks/regression/regression.cpp"]}
{"id": "C43", "title": "Merging equal instances preserves the regression objective", "statement": "Merging instances with identical features keeps the total weight and target sum, and repeating the preprocessing on the same data gives the same result.", "quantifier": "every dataset; every number of repetitions", "why_tests_cant": "Depends on history (folds, repeated fits).", "anchors": ["src/tasks/regression/cost_complex_regression.cpp: PreprocessTrainData"]}
{"id": "C44", "title": "Policy costs are non-negative regrets", "statement": "The treatment costs used for optimisation are non-negative, one is zero per instance, and minimising them is the same as optimising the estimated policy value.", "quantifier": "every score table", "why_tests_cant": "All datasets.", "anchors": ["src/tasks/prescriptive_policy.cpp"]}
{"id": "C45", "title": "Survival hazard function is a cumulative hazard", "statement": "The estimated hazard is positive, non-decreasing in time, and the binary search returns the value of the last event time not after the query.", "quantifier": "every list of times and events and every query", "why_tests_cant": "All data.", "anchors": ["src/tasks/survival_analysis.cpp: ComputeHazardFunction"]}
{"id": "C46", "title": "Predictions depend only on the tree and the data", "statement": "predict() returns for each row the label of the leaf reached by that row, independent of earlier predict() calls.", "quantifier": "every sequence of predict calls", "why_tests_cant": "Histories.", "anchors": ["src/solver/solver.cpp: Predict, InitializeTest", "include/solver/tree.h: Classify"]}
{"id": "C47", "title": "Fitting twice gives the same answer", "statement": "Calling solve again on the same data with the same parameters returns the same optimum.", "quantifier": "every dataset; every number of repetitions", "why_tests_cant": "Histories of calls.", "anchors": ["src/solver/solver.cpp: Solve, InitializeSolver"]}
{"id": "C48", "title": "Input files are read faithfully", "statement": "Writing a dataset in the documented format and reading it returns the same labels and binary features in order; malformed feature values are rejected.", "quantifier": "every dataset", "why_tests_cant": "All inputs.", "anchors": ["src/utils/file_reader.cpp"]}
{"id": "C49", "title": "Binarisation is consistent", "statement": "Each generated column is the indicator of its threshold or category test, columns of increasing thresholds are nested, and transform agrees with fit on the training data.", "quantifier": "every column of numbers or categories", "why_tests_cant": "All inputs.", "anchors": ["pystreed/binarizer.py"]}
{"id": "C50", "title": "Parameters outside their range are rejected", "statement": "A parameter keeps its default or an explicitly set value inside its declared range; invalid settings raise an error instead of being used.", "quantifier": "every sequence of settings", "why_tests_cant": "Histories.", "anchors": ["src/utils/parameter_handler.cpp", "src/solver/define_parameters.cpp"]}
{"id": "C51", "title": "Complexity-penalised search is optimal", "statement": "With a per-node cost the returned tree minimises error plus cost times number of nodes, over all trees within the depth limit.", "quantifier": "every dataset, cost and depth", "why_tests_cant": "All trees and histories.", "anchors": ["src/solver/solver.cpp: ComputeLowerBound lines 640-674, ReduceNodeBudget", "include/tasks/accuracy/cost_complex_accuracy.h"]}
{"id": "C52", "title": "Linear leaf models are finite", "statement": "The coefficients of a leaf model expressed in original units are finite for every training set, including those with a constant continuous feature.", "quantifier": "every dataset", "why_tests_cant": "All data.", "anchors": ["src/tasks/regression/piecewise_linear_regression.cpp: PostProcessTree"]}
{"id": "C53", "title": "Tree shape queries", "statement": "Depth, node count and leaf routing of a returned tree agree: node count is at most 2^depth - 1, each instance reaches exactly one leaf, and the number of leaves is node count + 1.", "quantifier": "every tree and instance", "why_tests_cant": "All trees.", "anchors": ["include/solver/tree.h: Depth, NumNodes, Classify"]}
{"id": "C54", "title": "Budget reduction by branching cost", "statement": "Reducing the depth and node budget from the upper bound and a constant branching cost removes no tree whose total cost is within the upper bound.", "quantifier": "every bound, cost, depth and node budget", "why_tests_cant": "Rounding cases.", "anchors": ["src/solver/solver.cpp: ReduceNodeBudget"]}
{"id": "C55", "title": "Trees never test a forbidden feature", "statement": "A feature on which the task forbids branching (for instance the sensitive feature of a fairness task) is not tested by any returned tree.", "quantifier": "every dataset, task and parameter setting", "why_tests_cant": "Depends on ties and on which of the search, depth-two and reconstruction paths produced a node.", "anchors": ["src/solver/solver.cpp: ConstructOptimalTree, SolveSubTreeGeneralCase", "src/solver/terminal_solver.cpp", "include/tasks/group_fairness.h: MayBranchOnFeature"]}
{"id": "C56", "title": "Survival leaf is the maximum-likelihood estimate", "statement": "A survival leaf gets the hazard ratio of smallest loss on its instances, its training cost is that loss, and evaluating the leaf on the training data gives the same value.", "quantifier": "every list of events and positive hazards", "why_tests_cant": "Real-valued data.", "anchors": ["src/tasks/survival_analysis.cpp: SolveLeafNode, GetLeafCosts, ComputeD2Costs"]}
{"id": "C57", "title": "Simple linear leaves are best lines", "statement": "In piecewise simple linear regression the model of a leaf is the best line: no continuous feature, slope and intercept has a smaller squared error plus ridge penalty on the instances of the leaf, the reported cost is that of the model, and the depth-two search uses the same model and cost.", "quantifier": "every set of instances, merged in any way into weighted groups, every number of continuous features and every penalty", "why_tests_cant": "All real-valued data and all competing lines.", "anchors": ["src/tasks/regression/piecewise_simple_linear_regression.cpp: SolveLeafNode, GetLeafCosts, ComputeD2Costs, GetLabel, GetSimpleModel"]}
{"id": "C58", "title": "Penalised linear leaves exist and are best", "statement": "In piecewise linear regression every leaf with enough instances gets a model, its reported cost is its squared error plus the lasso and ridge penalties, and no other linear model is cheaper (in particular no constant).", "quantifier": "every set of instances, every number of continuous features and all penalties", "why_tests_cant": "All real-valued data and all competing models; an iterative algorithm with several tolerances.", "anchors": ["src/tasks/regression/piecewise_linear_regression.cpp: SolveGLMNet, GetCovariate"]}
{"id": "C59", "title": "The F1 search finds the best F1-score", "statement": "When the F1-score is optimised, the search ends with one value: that of a tree within the depth, node and leaf-size limits, and no tree within the limits has a better F1-score on the training data.", "quantifier": "every binary-labelled training set with a positive instance, all limits, all combinations of the search options", "why_tests_cant": "All data sets; the search prunes fronts of incomparable values with bounds, caches and a depth-two solver, so that errors show only for particular combinations.", "anchors": ["src/solver/solver.cpp: Solve, SolveSubTree, SolveSubTreeGeneralCase, SolveTerminalNode, SubtractUBs", "include/solver/optimization_utils.h: LeftStrictDominatesRight", "include/tasks/f1score.h"]}
{"id": "C60", "title": "The fairness search finds the most accurate fair tree", "statement": "Under demographic parity or equality of opportunity, the search ends with one value: that of a tree within the depth, node and leaf-size limits that does not test the sensitive feature and whose discrimination on the training data is within the given limit; no such tree misclassifies fewer training instances.", "quantifier": "every binary-labelled training set with both groups present, every discrimination limit, all depth, node and leaf-size limits, all combinations of the search options", "why_tests_cant": "All data sets; fronts of three-valued solutions are cut off by bounds, constraints and tolerances, so that errors show only for particular combinations.", "anchors": ["src/solver/solver.cpp: Solve, SolveSubTree, SolveSubTreeGeneralCase, SubtractUBs", "src/solver/terminal_solver.cpp: Solve, SolveOneNode, Merge", "include/tasks/group_fairness.h: ExtremePoints, Dominates, SatisfiesConstraint", "include/tasks/eq_opp.h"]}
{"id": "C61", "title": "The tree returned for a partially ordered task is a best one", "statement": "When the F1-score is optimised, or accuracy under demographic parity or equality of opportunity, one tree is returned. It is within the depth, node and leaf-size limits, its labels are 0 or 1, it satisfies the fairness constraint without testing the sensitive feature, and no such tree has a better score on the training data.", "quantifier": "every binary-labelled training set, every discrimination limit, all depth, node and leaf-size limits, all combinations of the search options", "why_tests_cant": "The tree is put together after the search from cached fronts; whether a pair of cached values gives the value sought depends on the order and the bounds under which the fronts were computed.", "anchors": ["src/solver/solver.cpp: Solve, ConstructOptimalTree, Merge", "src/solver/terminal_solver.cpp: ConstructOptimalTree", "include/solver/optimization_utils.h: CheckReconstructSolution", "include/solver/container.h: FilterOnNumberOfNodes"]}
{"id": "C62", "title": "Caches of fronts over histories", "statement": "For tasks whose solutions are only partially ordered (F1-score, group and equality fairness), after any sequence of stores, lower-bound updates and transfers between equivalent branches, the set of solutions the caches hand out for a subproblem and a depth and node budget is the first non-empty set that was stored for that subproblem with exactly that depth and node budget, or nothing if none was stored.", "quantifier": "Every sequence of cache calls, every subproblem, every budget.", "why_tests_cant": "The order of stores, bound updates and transfers depends on the data and on the search; a lost or mixed-up entry only shows as a slower search or a wrong front on particular data sets.", "anchors": ["src/solver/cache.cpp Cache::StoreOptimalBranchAssignment", "src/solver/branch_cache.cpp BranchCache::StoreOptimalBranchAssignment", "src/solver/branch_cache.cpp BranchCache::TransferAssignmentsForEquivalentBranches", "src/solver/dataset_cache.cpp DatasetCache::StoreOptimalBranchAssignment", "src/solver/dataset_cache.cpp DatasetCache::RetrieveOptimalAssignment"]}
{"id": "C63", "title": "The returned tree respects an explicit node limit", "statement": "When a maximum number of branching nodes is given, the tree that fit() returns has at most that many branching nodes, also after a time-out.", "quantifier": "every data set, depth and node limit, leaf size, feature order, clock and combination of search options", "why_tests_cant": "The tree is put together after the search from cached answers for the subproblems; a cached answer for a larger budget than the one the search used only shows for particular data and budgets.", "anchors": ["src/solver/solver.cpp: Solve, ConstructOptimalTree", "src/solver/terminal_solver.cpp: ConstructOptimalTree", "src/solver/dataset_cache.cpp: RetrieveOptimalAssignment"]}
{"id": "C64", "title": "The search stops soon after the time limit", "statement": "Once the time limit has passed, fit() consults the clock only a few more times before the search returns: a number that depends on max_depth alone, not on the data, the number of features or the node limit.", "quantifier": "every data set, depth and node limit, leaf size, feature order, moment at which the limit passes and combination of search options", "why_tests_cant": "The limit may pass between any two of the very many checks; a loop that goes on after a failed check costs a factor of the number of features or sizes only for particular moments.", "anchors": ["src/solver/solver.cpp: Solve, SolveSubTree, SolveSubTreeGeneralCase", "include/utils/stopwatch.h: IsWithinTimeLimit"]}
{"id": "C65", "title": "Least total cost with real-valued costs", "statement": "For an instance cost-sensitive classifier (each training instance has a real cost per label), a fit() that reports an optimal result has found the least total cost of any tree within the depth and node limits.", "quantifier": "every data set, table of non-negative real costs, depth, feature order, clock and combination of search options", "why_tests_cant": "Real-valued solution values are compared with a relative tolerance throughout the search; whether a pruned candidate was better depends on the interplay of all bounds, and the loss shows only for particular magnitudes of the costs.", "anchors": ["include/solver/optimization_utils.h: LeftStrictDominatesRight, LeftDominatesRight, SolutionsEqual, DBL_DIFF", "src/tasks/instance_cost_sensitive.cpp: GetLeafCosts, ComputeSimilarityLowerBound", "src/solver/similarity_lowerbound.cpp: ComputeLowerBound", "src/solver/solver.cpp: SolveSubTree"]}
{"id": "C66", "title": "Least total of misclassification and test costs", "statement": "For a cost-sensitive classifier with a cost matrix and a price for every test (a second test of an attribute is free, later attributes of a group are discounted), a fit() that reports an optimal result has found the least total of misclassification costs and paid tests of any tree within the limits, and the reported total is that of an actual tree.", "quantifier": "every data set, table of non-negative costs, price list with groups and discounts, depth, node limit, feature order, clock and combination of search options", "why_tests_cant": "What a test costs depends on the path, while the search reuses results and bounds between paths that reach the same data; whether a reused value was computed under the same prices depends on the whole history of the search.", "anchors": ["src/tasks/cost_sensitive.cpp: GetBranchingCosts, GetLeafCosts, CostSpecifier", "include/tasks/cost_sensitive.h: CostSensitive", "src/solver/solver.cpp: PreprocessData, SolveSubTree, SolveTerminalNode, ComputeLeftRightLowerBound", "src/solver/terminal_solver.cpp: Solve, SolveOneLeafNode", "src/solver/branch_cache.cpp, src/solver/dataset_cache.cpp"]}
{"id": "C67", "title": "Regression lower bound is a bound", "statement": "The lower bound that cost-complexity regression computes for a subset of the data and a number of branching nodes (by grouping instances with equal features, or by clustering these groups) never exceeds the squared error plus complexity cost of any tree with that many branching nodes, whatever bounds were asked for and stored before; with clustering it is exactly the least cost of giving the groups that many values.", "quantifier": "every non-empty list of (merged) instances, non-negative complexity cost, number of nodes, order of earlier calls for the same branch, regression tree with any splits and leaf values", "why_tests_cant": "The clustering table is filled by two different algorithms that skip most entries on the strength of monotonicity arguments, and the loop stops early; with more than 300 groups and equal means some entries of the table are in fact wrong. Whether the bound stays valid depends on all data sets and on which entries earlier calls stored.", "anchors": ["src/tasks/regression/cost_complex_regression.cpp: ComputeLowerBound", "src/tasks/regression/ckmeans/Ckmeans.1d.dp.cpp: fill_dp_matrix_dynamic_stop", "fill_log_linear.cpp: fill_row_q_log_linear", "fill_SMAWK.cpp: fill_row_q_SMAWK, SMAWK, reduce_in_place, fill_even_positions", "within_cluster.h: ssq"]}
{"id": "C68", "title": "Cost-complexity regression is optimal", "statement": "When fitting cost-complexity regression reports that the result is optimal, the reported training value is the least squared error plus complexity cost over all regression trees of the permitted depth, where each branching node costs the cost-complexity parameter times the squared error of the best single leaf.", "quantifier": "every training set with any targets, every cost-complexity parameter, depth, choice of lower bound and search options", "why_tests_cant": "The search merges instances, prunes with bounds that combine the clustering bound with the price of nodes, and leaves are real-valued; a wrong bound returns a slightly worse tree that no test can tell from the optimum without an independent solver.", "anchors": ["src/tasks/regression/cost_complex_regression.cpp: PreprocessTrainData, SolveLeafNode, ComputeLowerBound", "src/solver/solver.cpp: ComputeLowerBound, SolveSubTree", "pystreed/regression.py"]}
{"id": "C69", "title": "Results with real-valued costs are close to the best", "statement": "When fitting a task with real-valued costs reports that the result is optimal, the reported training value is attained by an allowed tree and exceeds the least possible value by at most the relative tolerance of 1e-4, compounded a number of times that depends only on the number of features, the depth and node limits and the options, never on the data or on the size of the costs.", "quantifier": "every dataset, every table of costs or targets, depth, node limit, feature order, clock and search option", "why_tests_cant": "The tolerance can be lost at every level of the recursion and again whenever a cached bound or result is reused under other limits; no finite set of runs shows that these losses do not accumulate with the size of the data or of the costs.", "anchors": ["include/solver/optimization_utils.h: LeftStrictDominatesRight, LeftDominatesRight, SolutionsEqual, DBL_DIFF", "src/solver/solver.cpp: SolveGeneralCase, UpdateUB, SolveSubTree", "src/solver/branch_cache.cpp", "src/solver/dataset_cache.cpp"]}
{"id": "C70", "title": "The policy found has the largest estimated value", "statement": "When fitting a prescriptive policy reports that the result is optimal, the reported training cost is that of a policy whose estimated value, under the chosen teacher method, is the largest of all policies of the permitted depth.", "quantifier": "every set of people with any historic treatments, outcomes, propensity scores and predicted outcomes, teacher method, depth, feature order, clock and search options", "why_tests_cant": "The costs searched are shifted by a common minimum, pruned with worst values per label and compared with a tolerance; a test cannot tell a nearly best policy from the best one without an independent solver, and large outcomes never occur in the example data.", "anchors": ["src/tasks/prescriptive_policy.cpp: InformTrainData, GetLeafCosts, GetInstanceLeafD2Costs", "include/tasks/prescriptive_policy.h: worst, GetWorstPerLabel", "src/solver/solver.cpp: Solve", "pystreed/prescriptive_policy_generation.py"]}
{"id": "C71", "title": "Predicted probabilities are leaf frequencies", "statement": "predict_proba() of a fitted classifier returns, for every row and every class, the share of that class among the training rows that end in the same leaf as the row; every row sums to one, the label that predict() gives has the largest share, and no exception is raised.", "quantifier": "every tree, training set, matrix to predict for, number of classes", "why_tests_cant": "The recursion passes too many rows to left subtrees (it inverts the bits of integers) and relies on later writes; whether every row ends up right depends on all trees and matrices. The assertions inside hold only for trees whose leaves have majority labels.", "anchors": ["pystreed/classification.py: fit, predict_proba, _recursive_predict_proba", "pystreed/base.py: _process_predict_data"]}
{"id": "C72", "title": "Exports show the fitted tree", "statement": "The text of a tree, what print_tree() writes and the graph that export_dot() writes each determine the fitted tree: different trees give different output, every node of the graph has its own number, and following the graph along the edges labelled with the truth values of the predicates ends at the label that predict() gives. Exporting raises no exception.", "quantifier": "every tree of any depth, all feature and label names, every instance, every order of fits and exports", "why_tests_cant": "Numbers of graph nodes and edge labels are computed from each other and could collide or be swapped only in deep or lopsided trees; whether names stay distinguishable depends on all data sets.", "anchors": ["include/solver/tree.h: ToString, BuildTreeString", "pystreed/base.py: print_tree, _recursive_print_tree, _get_predicate_str, export_dot, _recursive_export_dot", "pystreed/classification.py: _export_dot_leaf_node", "pystreed/utils.py: _dynamic_float_formatter"]}
{"id": "C73", "title": "The fairness limit is applied to the sensitive column", "statement": "Fitting with group-fairness or equality-of-opportunity measures discrimination on the column the user names as the sensitive feature, with the values it has in the data, for every fit on the same data.", "quantifier": "every data frame or array with any columns of any type, every choice of the sensitive column by name or position, every number of fits", "why_tests_cant": "The column passes through a reordering that changes the caller's data, and through a binarisation that sorts columns by type; whether it is still first depends on the types of all columns and on earlier calls.", "anchors": ["pystreed/group_fair.py: _move_sensitive_feature_first, fit", "pystreed/binarizer.py: get_column_types, Binarizer.transform", "src/tasks/group_fairness.cpp, eq_opp.cpp: IsFeaturePresent(0)"]}
{"id": "C74", "title": "Survival predictions are proper", "statement": "The cumulative hazard functions that a fitted survival tree predicts are positive and never decrease, its survival functions lie between zero and one and never increase, risk scores are ordered as the hazard ratios of the leaves, and all are computed with the same baseline hazard that the tree was trained with: the Nelson-Aalen estimate of the training data.", "quantifier": "every training set with any non-negative times, events and censoring, every hazard ratio, every time", "why_tests_cant": "The baseline is computed twice, in C++ and in Python, with different data structures, a special entry at time zero and different comparisons; whether the two agree at every time depends on all gaps between times.", "anchors": ["pystreed/survival_analysis.py: _compute_baseline_cumulative_hazard_function, predict, predict_cumulative_hazard_function, predict_survival_function", "src/tasks/survival_analysis.cpp: ComputeHazardFunction"]}
{"id": "C75", "title": "Leaves predict a most frequent class", "statement": "If an accuracy fit returns a tree, then for every row the predicted label is a most frequent one among the training rows that end in the same leaf, even when the tree is not optimal, and also after a time-out.", "quantifier": "every dataset, depth, node limit, leaf size, feature order, combination of solver options, initial upper bound and time at which the clock runs out", "why_tests_cant": "The returned tree is rebuilt from cached solutions of subproblems, whose labels were chosen for other datasets with the same key, or by the depth-two solver from aggregated counts; a stale or mismatched label would only show on particular search histories and time-outs.", "anchors": ["include/solver/solver.h: SolveLeafNode, ConstructOptimalTree, SolveTerminalNode", "src/tasks/accuracy/accuracy.cpp: GetLeafCosts", "pystreed/classification.py: predict_proba"]}
{"id": "C76", "title": "Returned trees for real-valued costs", "statement": "For instance costs, prescriptive policies, penalised errors and cost-complexity regression, whatever a fit returns is a tree within the depth limit whose leaves hold enough training rows, the reported training value is the cost of exactly that tree on the training data, and every leaf carries the best prediction for the training rows it receives: the cheapest label, the treatment with the largest estimated outcome, a most frequent class, or the mean of the targets. This holds although comparisons of doubles are tolerant and the search may miss the optimum, and also after a time-out.", "quantifier": "every dataset, costs, price, depth, node limit, leaf size, feature order, combination of solver options, initial upper bound and time at which the clock runs out", "why_tests_cant": "The tree is rebuilt from cached solutions by comparing doubles with a tolerance; a mismatch between the rebuilt tree and the reported value shows only on particular costs, histories of the caches and time-outs.", "anchors": ["include/solver/solver.h: ConstructOptimalTree, SolveLeafNode, Solve", "include/solver/optimization_utils.h: LeftDominatesRight, LeftStrictDominatesRight", "src/tasks/instance_cost_sensitive.cpp: GetLeafCosts", "src/tasks/prescriptive_policy.cpp: GetLeafCosts", "src/tasks/accuracy/cost_complex_accuracy.cpp", "src/tasks/regression/cost_complex_regression.cpp: SolveLeafNode"]}
{"id": "C77", "title": "Tuned settings reach the final fit", "statement": "With hyper-parameter tuning, the final fit charges the cost-complexity price of the selected configuration, the same price as a fit without tuning and with that setting, and it sees the same training data.", "quantifier": "every training set, order of the rows, initial parameter and selected parameter, for every task with a cost-complexity parameter", "why_tests_cant": "Whether the price is recomputed depends on whether two data views compare equal, which depends on the order of the rows and on repeated feature vectors.", "anchors": ["src/solver/solver.cpp: HyperSolve, InitializeSolver, Solve", "src/model/data.cpp: ADataView::operator==", "src/tasks/regression/cost_complex_regression.cpp: PreprocessTrainData", "src/tasks/regression/piecewise_linear_regression.cpp: InformTrainData, PreprocessTrainData", "src/tasks/regression/piecewise_simple_linear_regression.cpp: PreprocessTrainData", "include/tasks/accuracy/cost_complex_accuracy.h: GetBranchingCosts"]}
{"id": "C78", "title": "Tuning validates on every training row", "statement": "During hyper-parameter tuning every training row is in the test part of exactly one fold and in the training part of all others.", "quantifier": "every training set, order of the rows, number of folds and shuffle", "why_tests_cant": "Rows with equal features are merged before the split, and the folds fetch objects by id; which rows are lost depends on the feature vectors that occur more than once.", "anchors": ["src/solver/solver.cpp: HyperSolve", "src/model/data.cpp: KFoldSplit", "src/tasks/regression/cost_complex_regression.cpp: PreprocessTrainData", "src/tasks/regression/piecewise_simple_linear_regression.cpp: PreprocessTrainData"]}
{"id": "C79", "title": "Regression trees predict means, keep the limits and are the best", "statement": "A tree fitted for the plain regression objective keeps the depth and leaf-size limits, predicts in every leaf the mean of the targets that reach it, reports its own squared error on the training data, and no tree within the limits has a smaller squared error.", "quantifier": "every training set with rational targets, depth, node and leaf-size limit, feature order, initial upper bound, clock and solver option", "why_tests_cant": "Targets are arbitrary numbers, comparisons are tolerant, and results come from caches, bounds and the depth-two solver; a test compares a few trees with a few others.", "anchors": ["src/tasks/regression/regression.cpp: Regression", "include/tasks/regression/regression.h: Regression, D2RegressionSol", "src/solver/solver.cpp: Solve, SolveSubTree, SolveTerminalNode, ConstructOptimalTree", "python/pystreed/regression.py: STreeDRegressor"]}
{"id": "C80", "title": "Costs may be given in any unit", "statement": "Dividing all instance costs by the same positive number does not change which tree is fitted.", "quantifier": "every training set, cost table, divisor, leaf size, feature order and option", "why_tests_cant": "The depth-two solver skips costs below a fixed threshold; test data have costs far above it.", "anchors": ["include/tasks/instance_cost_sensitive.h: IsD2ZeroCost", "include/tasks/prescriptive_policy.h: IsD2ZeroCost", "src/solver/cost_combiner.cpp: CostCalculator::UpdateCosts", "src/solver/terminal_solver.cpp: SolveOneNode, Solve"]}
{"id": "C81", "title": "Predictions depend on named columns and on the row alone", "statement": "Predicting a data frame uses its columns by name: their order and further columns do not matter. The prediction for a row is the same in every batch. After a fit, every frame with the training columns can be predicted, and no training column was ignored.", "quantifier": "every training frame, declared categorical columns, tree, frame to predict, order of columns, selection of rows", "why_tests_cant": "Tests predict the training data, with its columns in their order and all rows at once.", "anchors": ["pystreed/binarizer.py: get_column_types, Binarizer.fit, Binarizer.transform", "pystreed/base.py: _binarize_data, _process_predict_data, predict"]}
{"id": "C82", "title": "Linear leaves get the columns they were fitted with", "statement": "The piecewise-linear regressor evaluates its leaves on the columns that were used in the last fit. Without given columns, a fit detects them in its own data.", "quantifier": "every sequence of fits and predictions, with columns given by name, as values, or not at all", "why_tests_cant": "The choice depends on what was called before and on the values of all rows of a batch; tests fit once and predict the same data.", "anchors": ["pystreed/regression.py: STreeDPiecewiseLinearRegressor._get_continuous_columns, fit, predict", "src/tasks/piecewise_linear_regression.cpp: LinearModel::Predict"]}
{"id": "C83", "title": "Class labels may be any integers", "statement": "A fit with integer class labels groups the rows by label.", "quantifier": "every sequence of integer labels", "why_tests_cant": "Tests use labels 0, 1, ...; a negative label passes every check in Python and is an access out of range in C++.", "anchors": ["src/bindings.cpp: NumpyToSTreeDData", "pystreed/base.py: _process_fit_data"]}
{"id": "C84", "title": "Regression with a line in every leaf returns the best tree", "statement": "Fitting a regression tree with a line in every leaf returns a tree within the depth, node and leaf-size limits whose cost is the reported one; if the run is reported as optimal, no allowed tree costs less.", "quantifier": "every set of rows with real targets and features, every price of a branching node, ridge penalty, limits, and solver options", "why_tests_cant": "Whether a better tree exists needs all trees of all data sets; the lower bound only fails when a split gains less than two prices of a node.", "anchors": ["include/tasks/regression/piecewise_simple_linear_regression.h: expensive_leaf", "src/tasks/regression/piecewise_simple_linear_regression.cpp: InformTrainData, SolveLeafNode", "src/solver/solver.cpp: ComputeLowerBound, SolveSubTree, SolveSubTreeGeneralCase, Solve", "pystreed/regression.py: STreeDPiecewiseLinearRegressor"]}
{"id": "C85", "title": "Piecewise linear regression returns the best tree of linear models", "statement": "Fitting a regression tree with a penalised linear model in every leaf returns a tree whenever there are enough rows for one leaf; it is within the depth, node and leaf-size limits and has the reported cost; if the run is reported as optimal, no allowed tree costs less.", "quantifier": "every set of rows with real targets and features, every lasso and ridge penalty, price of a branching node, limits, and solver options", "why_tests_cant": "A group of rows with equal targets, and a split that gains less than two prices of a node, have to occur in the right place; whether a better tree exists needs all trees of all data sets.", "anchors": ["include/tasks/regression/piecewise_linear_regression.h: GetWorstPerLabel, GetBranchingCosts", "src/tasks/regression/piecewise_linear_regression.cpp: InformTrainData, SolveGLMNet, SolveLeafNode, ComputeSimilarityLowerBound", "src/solver/solver.cpp: ComputeLowerBound, SolveLeafNode, SolveSubTree, SolveSubTreeGeneralCase, Solve", "pystreed/regression.py: STreeDPiecewiseLinearRegressor"]}
{"id": "C86", "title": "A survival tree has the least loss", "statement": "Fitting a survival tree returns a tree whenever there are enough rows for one leaf; it is within the depth and leaf-size limits; the reported loss is that of the tree; if the run is reported as optimal, no allowed tree has a smaller loss.", "quantifier": "every set of rows with times and censoring, every limit, feature order and solver option", "why_tests_cant": "Whether a better tree exists needs all trees of all data sets; leaves without an event are scored differently from how they are searched.", "anchors": ["include/tasks/survival_analysis.h: SurvivalAnalysis, SAData", "src/tasks/survival_analysis.cpp: PreprocessTrainData, SolveLeafNode, GetLeafCosts, ComputeD2Costs, GetLabel", "include/solver/tree.h: ComputeTrainScore", "src/solver/solver.cpp: Solve, PreprocessData", "pystreed/survival_analysis.py: STreeDSurvivalAnalysis"]}
{"id": "C87", "title": "A failed fit does not leave a mixture behind", "statement": "After any sequence of fit calls, predict answers with the tree and the binarisation of the same, last successful call, or reports that the estimator is not fitted; get_tree, print_tree and export_dot show that tree, and is_fitted tells whether there is one.", "quantifier": "every sequence of fit calls, each of which may succeed, find no tree, or raise at any step", "why_tests_cant": "Tests fit once and successfully; the state after an exception depends on the step that raised.", "anchors": ["pystreed/base.py: __init__, fit, _binarize_data, _process_fit_data, is_fitted, predict, get_tree, print_tree, export_dot", "src/bindings.cpp: _solve, _predict", "src/solver/solver.cpp: PreprocessData", "include/solver/tree.h: Classify"]}
{"id": "C88", "title": "Columns declared categorical are treated as categories", "statement": "A column named in the argument categorical of fit is turned into tests on categories, not into thresholds, by every estimator that has the argument.", "quantifier": "every estimator, data frame and list of declared columns", "why_tests_cant": "The argument is passed on separately by every estimator, and one that drops it still fits a tree.", "anchors": ["pystreed/base.py: fit, _process_extra_data, _binarize_data", "pystreed/classification.py: fit", "pystreed/cost_sensitive_classification.py: fit", "pystreed/group_fair.py: fit", "pystreed/instance_cost_sensitive_classification.py: fit", "pystreed/prescriptive_policy_generation.py: fit", "pystreed/regression.py: fit", "pystreed/survival_analysis.py: fit"]}
{"id": "C89", "title": "The score of new data is the task's score of the predictions", "statement": "score on new rows gives the task's measure of the predictions on those rows: accuracy, the F1-score, or for a fairness task the accuracy if the rates of the two groups among those rows differ by at most the limit and 0 otherwise. get_question_length gives the average number of tests per row. Both, and predict, are defined for all rows.", "quantifier": "every returned tree, set of flipped features, training data and non-empty set of new rows with labels, for accuracy, F1-score, demographic parity and equality of opportunity", "why_tests_cant": "Test data with the size and the classes of the training data, as in a unit test, do not show what is taken from the training data; out-of-range reads depend on memory contents.", "anchors": ["include/solver/tree.h: ComputeTestScore", "include/solver/result.h: ComputeTestPerformance", "src/solver/solver.cpp: InitializeTest, TestPerformance, Predict", "src/tasks/group_fairness.cpp: GetLeafCosts, ComputeTestTestScore, InformTestData", "src/tasks/eq_opp.cpp: GetLeafCosts, ComputeTestTestScore, InformTestData", "src/tasks/f1score.cpp: GetLeafCosts, ComputeTestTestScore", "src/bindings.cpp: NumpyToSTreeDData", "pystreed/base.py: predict, score, get_question_length"]}
{"id": "C90", "title": "The score of new data with costs, treatments and numbers is that of the predictions", "statement": "score on new rows gives, for cost-sensitive classification, the average cost of a row (the misclassification cost of its prediction plus the cost of the features asked for) relative to a standard cost; for instance-specific costs the average cost that the rows state for their predictions; for policies the fraction of rows that are given their best treatment, where known; for regression the mean squared error. It is defined for all rows.", "quantifier": "every returned tree, set of flipped features, table of costs and non-empty set of new rows", "why_tests_cant": "The score must be right for every tree and every set of rows; rows without a best treatment, data of one class and classes that training never saw are the cases that unit tests leave out.", "anchors": ["include/solver/tree.h: ComputeTestScore", "src/tasks/cost_sensitive.cpp: GetLeafCosts, GetBranchingCosts, ComputeScore", "src/tasks/instance_cost_sensitive.cpp: GetTestLeafCosts, PreprocessTestData", "include/tasks/instance_cost_sensitive.h: ComputeTestTestScore", "src/tasks/prescriptive_policy.cpp: GetTestLeafCosts", "include/tasks/prescriptive_policy.h: PPGData, ComputeTestTestScore", "pystreed/prescriptive_policy_generation.py: _check_data, score", "src/tasks/regression/regression.cpp: GetLeafCosts", "src/tasks/regression/cost_complex_regression.cpp: GetTestLeafCosts"]}
{"id": "C91", "title": "F1 and fairness fits under a time limit", "statement": "Whenever the time limit passes during the fit of an F1-score or fairness classifier: every score found is that of a legal (and fair) tree; a result reported as optimal has the scores and trees of a fit without limit, and a fit that ran out of time is not reported as optimal; the search stops after a number of further looks at the clock that depends on max_depth alone; and the returned tree has labels of the problem and the score that was found.", "quantifier": "every moment at which the limit can pass, every data set, depth and node limit, leaf size, feature order and combination of search options", "why_tests_cant": "The limit may pass between any two of very many checks, and what is in the caches then differs from one moment to the next; a test hits a handful of them.", "anchors": ["src/solver/solver.cpp: Solve lines 112-200, SolveSubTree line 280, SolveSubTreeGeneralCase lines 399-517, ConstructOptimalTree", "include/utils/stopwatch.h"]}
{"id": "C92", "title": "The score of new data with lines, linear models and survival times is that of the predictions", "statement": "score on new rows gives the mean squared error of the predictions for regression with a line or a linear model in every leaf, and for survival analysis the mean loss of the rows under the predicted risks, with the hazard estimated from the training data. It is defined for all rows.", "quantifier": "every returned tree, set of flipped features, models and risks in the leaves, ridge penalty and non-empty set of new rows", "why_tests_cant": "The score must be right for every tree, penalty and set of rows; a test compares a few scores at the default settings.", "anchors": ["src/tasks/regression/piecewise_simple_linear_regression.cpp: GetLeafCosts, GetTestLeafCosts", "include/tasks/regression/piecewise_simple_linear_regression.h: ComputeTestTestScore", "src/tasks/regression/piecewise_linear_regression.cpp: GetTestLeafCosts", "src/tasks/survival_analysis.cpp: GetLeafCosts, ApplyHazardFunction", "include/tasks/survival_analysis.h: GetTestLeafCosts, ComputeTestTestScore", "pystreed/regression.py: score", "pystreed/survival_analysis.py: score"]}
{"id": "C93", "title": "The linear model in a leaf is fitted on the rows of that leaf", "statement": "With linear models in the leaves, every model the solver uses for a leaf is the one fitted on exactly the training rows that reach that leaf, with the penalties of the current run. Nothing remembered from other leaves, other trial settings or other folds of tuning enters.", "quantifier": "every sequence of runs of one task object, on any data sets and penalties, and every order of leaf computations in each run", "why_tests_cant": "The task object keeps its last result and never clears it; whether a stale result is used depends on which leaf was computed last and first in consecutive runs, which a test does not control.", "anchors": ["src/tasks/regression/piecewise_linear_regression.cpp: SolveLeafNode, GetTuneRunConfiguration", "src/solver/solver.cpp: Solve, InitializeSolver, HyperSolve"]}
{"id": "C94", "title": "Arithmetic on error counts stays in range", "statement": "While fitting for the F1-score or a fairness limit, the differences and hash codes the solver computes from the values of solutions fit their C++ integer types, for every data set whose row count fits easily; no fit runs into undefined behaviour through them.", "quantifier": "every data set of at most 46340 rows, all trees on it, and all containers of solutions and bounds the search builds from them", "why_tests_cant": "Signed overflow usually gives some number, and a test sees the same result; whether all values met in a search fit has to be argued for every front and bound.", "anchors": ["include/tasks/f1score.h: CalcDiff, hash", "include/tasks/group_fairness.h: CalcDiff, hash, worst", "include/tasks/eq_opp.h: CalcDiff, hash, worst", "include/solver/container.h: InternalAddOrMerge, InternalAdd", "src/solver/solver.cpp: SubtractUBs, ConstructOptimalTree"]}
{"id": "C95", "title": "Data of different lengths are refused", "statement": "If feature rows, labels and extra data (costs, treatments, events, columns for linear leaves) given to fit, score or predict differ in number, the call raises an exception. Otherwise every row is used with its own label and its own extra data.", "quantifier": "every task, every number of rows, labels and items of extra data, given or left out", "why_tests_cant": "An access out of range often goes unnoticed; that it never happens, and that every row gets its own data, has to hold for all combinations of lengths.", "anchors": ["src/bindings.cpp: NumpyToSTreeDData", "pystreed/base.py: fit, predict, score, _process_fit_data, _process_score_data, _process_extra_data", "pystreed/instance_cost_sensitive_classification.py: fit, predict, score, _check_data", "pystreed/prescriptive_policy_generation.py: fit, predict, score, _check_data", "pystreed/regression.py: _get_continuous_columns", "pystreed/survival_analysis.py: fit, score, _process_extra_data"]}
{"id": "C96", "title": "Policy data given as an array are read as documented", "statement": "If policy data are given as the documented array for K treatments (treatment, outcome, propensity, K predicted outcomes and, optionally, the best treatment and K outcomes), the treatment, outcome, propensity, predictions and outcomes used by fit and score are those in the documented columns.", "quantifier": "every number of treatments and rows, all values, with and without the columns for tests, whichever treatments occur in the data", "why_tests_cant": "The layout is recognised from the width of the array and the treatments that happen to occur; mistakes show only for special combinations, and then without an error.", "anchors": ["pystreed/prescriptive_policy_generation.py: _check_data, fit, score", "include/tasks/prescriptive_policy.h: PPGData", "src/tasks/prescriptive_policy.cpp: InformTrainData"]}
{"id": "C97", "title": "Every label with costs and every treatment with predictions can be predicted", "statement": "If cost vectors with K entries, or policy data with predictions for K treatments, are given to fit, all K labels are considered for every leaf: the tree is the best one among trees over all K labels.", "quantifier": "every number of labels, all costs and predictions, every depth, feature order, clock and option", "why_tests_cant": "The label that is best for a group of rows need not be best for any single row, and that no such label is overlooked has to hold for all costs.", "anchors": ["pystreed/instance_cost_sensitive_classification.py: _check_data, fit", "pystreed/prescriptive_policy_generation.py: _check_data, fit", "src/bindings.cpp: NumpyToSTreeDData", "src/tasks/instance_cost_sensitive.cpp: PreprocessTrainData", "include/tasks/instance_cost_sensitive.h: num_labels", "src/solver/define_parameters.cpp: num-extra-cols"]}
{"id": "C98", "title": "Hash codes never change a result", "statement": "What the caches return depends only on what was stored under an equal key before, never on hash codes, collisions, the number of buckets or the moment a table grows; computing a hash code is defined for every key.", "quantifier": "every history of insertions, changes, lookups and rehashes, every placement inside buckets, all branches, features and sets of rows, hash codes remembered or not", "why_tests_cant": "Collisions and rehashes depend on sizes and library versions and are rare; a wrong lookup would silently give a wrong tree.", "anchors": ["include/model/branch.h: BranchHashFunction, BranchEquality", "include/solver/data_splitter.h: BranchFeatureHashFunction", "include/utils/dynamic_bitset.h: hash<DynamicBitSet>", "include/model/data.h: ADataViewBitSet, hash<ADataViewBitSet>", "src/solver/dataset_cache.cpp: FindIterator", "src/solver/branch_cache.cpp: hashmap.find"]}
{"id": "C99", "title": "Settings given to an estimator raise an exception or reach the solver, and never end the process", "statement": "Whatever settings an estimator is made with, fit raises an exception if one of them is outside its documented range, and otherwise the solver is made with exactly the given settings (the number of branching nodes cut to what the depth allows). In no case does the Python process end.", "quantifier": "every estimator class, every task, all values of all settings", "why_tests_cant": "Ranges are tested three times, in Python, by the setters and jointly, and that these agree for all combinations of values cannot be sampled.", "anchors": ["pystreed/base.py: _parameter_constraints, _initialize_param_handler, fit", "pystreed/regression.py: STreeDRegressor, STreeDPiecewiseLinearRegressor", "pystreed/group_fair.py: _initialize_param_handler", "src/bindings.cpp: ExposeIntegerProperty, ExposeFloatProperty, initialize_streed_solver", "src/utils/parameter_handler.cpp: CheckIntegerParameter, CheckFloatParameter, CheckParameters"]}
{"id": "C100", "title": "New data are read like the training data", "statement": "After fit, predict, score and get_question_length apply the tree to the same columns as fit did: for a data frame whatever the order of its columns and whatever further columns it has, for an array by position, and all methods of an estimator agree.", "quantifier": "every training and new data frame or array, every order of columns, every sensitive feature, every tree", "why_tests_cant": "A column read in the wrong place gives plausible numbers and no error; that it never happens has to hold for every arrangement of columns.", "anchors": ["pystreed/binarizer.py: Binarizer.fit, Binarizer.transform", "pystreed/base.py: _binarize_data, predict, score, get_question_length", "pystreed/group_fair.py: _move_sensitive_feature_first, predict, score"]}
{"id": "C101", "title": "Rows that are not trained on do not change the result", "statement": "On the command line, the rows of a test file, split-off rows and copies of the training rows do not change the best number of misclassified training rows, the reported train value or the optimality of the returned tree; and the reported test score and path length are those of the returned tree on the test rows as they were read.", "quantifier": "every set of training rows, every set of other rows in the dataset, every depth, leaf size, option and clock", "why_tests_cant": "All rows are preprocessed together, so that test rows decide which features are inverted or switched off; that this never leaks into the result has to hold for every pair of training and test rows.", "anchors": ["src/main.cpp: PreprocessData, Solve, TestPerformance", "src/utils/file_reader.cpp: ReadData, CopyTrainData, FillDataView", "src/solver/solver.cpp: Solver::PreprocessData, Solver::TestPerformance, Solver::PostProcessTree"]}
{"id": "C102", "title": "Survival curves belong to the tree of the estimator", "statement": "After any sequence of calls of fit on a survival estimator, the hazard curves it predicts combine a tree with the baseline hazard and the observed times of the call that found that tree; after a call that raises, the predictions are those from before.", "quantifier": "every sequence of fit calls, with any outcomes, and all new rows", "why_tests_cant": "The baseline hazard and the tree are stored at different moments of fit; whether they can come apart depends on the history of calls and on where a call stops.", "anchors": ["pystreed/survival_analysis.py: fit, predict_cumulative_hazard_function, predict_survival_function", "pystreed/base.py: fit, predict"]}
{"id": "C103", "title": "Cost specifications are applied as given or refused", "statement": "A cost specification, read from a file or given from Python, that divides the binary features among the attributes and has a cost for every pair of labels is applied exactly: the value of a tree is the sum of the given misclassification costs and of the given prices of the tests on each path, free for an attribute tested before and discounted after another attribute of its group. Any other specification is refused with an error.", "quantifier": "every list of attributes with any ranges and groups, every matrix, every file, every tree and dataset", "why_tests_cant": "The prices are copied into flat tables indexed by pairs of features and read without checks; that every entry is right and no read is out of range has to hold for every way to divide the features.", "anchors": ["src/tasks/cost_sensitive.cpp: CostSpecifier::CostSpecifier, CostSpecifier::Initialize, CostSensitive::GetBranchingCosts, CostSensitive::GetLeafCosts", "src/bindings.cpp: FeatureCostSpecifier, CostSpecifier, specify_costs", "include/base.h: runtime_assert"]}
{"id": "C104", "title": "Cost vectors of any lengths are used entry by entry or refused", "statement": "If an array of costs or a list of cost vectors, possibly of different lengths, is given to fit or score of the classifier with costs per row, the call raises an exception or uses for every row the cost that its vector has for the label in question: during the search every tree has the sum of the costs of its predictions, and score() is the sum of the costs of the predicted labels. No cost is ever read outside a vector.", "quantifier": "every list of vectors of any lengths, every array, every tree and every set of rows", "why_tests_cant": "Whether a short vector matters depends on which labels are cheapest in the other rows and on the labels a tree predicts, so it has to be shown for all combinations.", "anchors": ["pystreed/instance_cost_sensitive_classification.py: _check_data, fit, score", "src/tasks/instance_cost_sensitive.cpp: InformTrainData, GetLeafCosts, GetTestLeafCosts", "include/tasks/instance_cost_sensitive.h: InstanceCostSensitiveData"]}
{"id": "C105", "title": "Predicted probabilities belong to the tree of the estimator", "statement": "After any sequence of calls of fit on a classifier, predict_proba() answers with the number of classes, the thresholds, the tree and the class shares of one call, the one that found the tree; a call of fit that raises leaves its answers as they were.", "quantifier": "every sequence of fit calls, with any outcomes, and all new rows", "why_tests_cant": "The number of classes, the training rows and the tree are stored at three different moments of fit; whether they can come apart depends on the history of calls and on where a call stops.", "anchors": ["pystreed/classification.py: fit, predict_proba, _recursive_predict_proba", "pystreed/base.py: fit"]}
{"id": "C106", "title": "Colours in exported graphs are valid and tell classes apart", "statement": "In a graph written by export_dot every leaf and every branching node has colours that a graph reader accepts, leaves of different classes have different fill colours, and a branching node of the instance-cost-sensitive classifier is coloured more fully the more its best class saves against the second best.", "quantifier": "every number of classes and all sums of costs, negative ones included", "why_tests_cant": "Colours are computed from hues by rounding and written with a format that fills up with spaces; whether a component can become short, negative or too large, and from which number of classes colours repeat, depends on all class numbers and costs.", "anchors": ["pystreed/utils.py: _color_brew", "pystreed/base.py: _export_dot_leaf_node", "pystreed/instance_cost_sensitive_classification.py: _get_branching_color, _export_dot_leaf_node"]}
{"id": "C107", "title": "The exported graph of the instance-cost-sensitive classifier shows what it predicts", "statement": "In the graph written by export_dot of an instance-cost-sensitive classifier, the picture of every leaf gives the number of training rows that reach it, the class that predict returns there, and the average cost of this class on these rows; the picture of a branching node gives the number of rows that pass it and the class that would cost least on them.", "quantifier": "every training set, cost vectors, settings and time limit; every node and row", "why_tests_cant": "The class in a picture is computed in Python from the stored rows, the class of a leaf by the search in C++ among the labels it considers; that both agree depends on every label choice of the search.", "anchors": ["pystreed/instance_cost_sensitive_classification.py: _export_bar_plot, _export_dot_predicate_node, _export_dot_leaf_node", "pystreed/base.py: _recursive_export_dot, _split", "src/tasks/instance_cost_sensitive.cpp: PreprocessTrainData"]}
{"id": "C108", "title": "Scores of the instance-cost-sensitive classifier belong to its tree", "statement": "After any sequence of calls of fit on an instance-cost-sensitive classifier, score() answers with the total costs of the predictions of one call's tree, the one the estimator shows, and accepts exactly cost arrays for the classes of that call; a call of fit that raises leaves its answers as they were.", "quantifier": "every sequence of fit calls, with any outcomes, and all new rows and costs", "why_tests_cant": "The number of classes is stored before the base class checks its parameters and the rows; whether it and the tree can come apart depends on the history of calls and on where a call stops.", "anchors": ["pystreed/instance_cost_sensitive_classification.py: _check_data, fit, score", "pystreed/base.py: fit, score", "src/bindings.cpp: _test_performance"]}
{"id": "C109", "title": "Exported graphs do not depend on earlier fits and exports", "statement": "After any sequence of calls of fit and export_dot on a classifier of which the last call of fit found a tree, export_dot writes the graph of that tree with every leaf in the colour of its class, the same graph as that of a new classifier fitted on the same data.", "quantifier": "every sequence of fit and export_dot calls, with any labels, trees and outcomes", "why_tests_cant": "The colours are kept in the estimator when the first leaf is drawn. Whether they fit a later tree depends on the whole history of calls and on the numbers of classes in it.", "anchors": ["pystreed/classification.py: _export_dot_leaf_node", "pystreed/cost_sensitive_classification.py: _export_dot_leaf_node", "pystreed/group_fair.py: _export_dot_leaf_node", "pystreed/prescriptive_policy_generation.py: _export_dot_leaf_node", "pystreed/base.py: export_dot, _recursive_export_dot, _split", "pystreed/utils.py: _color_brew"]}
{"id": "C110", "title": "Pictures of the instance-cost-sensitive classifier show the cheapest classes", "statement": "The picture that export_dot draws for a node of an instance-cost-sensitive classifier has one bar for each of the four classes with the least average costs over the training rows that reach the node (for all classes if there are fewer), in the order of costs with the cheapest on top; exactly the best class is coloured, and it is the bar on top, with the costs that the title gives, also if several classes cost the same.", "quantifier": "all numbers of classes, all costs and all non-empty sets of rows", "why_tests_cant": "Ties between classes and the position of the best class in the sorted list depend on all costs; the coloured class and the title are computed separately from the bars.", "anchors": ["pystreed/instance_cost_sensitive_classification.py: _export_bar_plot"]}
{"id": "C111", "title": "Scores of the policy estimator belong to its tree", "statement": "After any sequence of calls of fit on a policy estimator, score() answers with the share of the new rows for which the tree that the estimator shows predicts the best treatment, and reads arrays of new data for the treatments of the call that found this tree; a call of fit that raises leaves its answers as they were.", "quantifier": "every sequence of fit calls, with any outcomes, and all new rows and arrays", "why_tests_cant": "The number of treatments is stored before the base class checks its parameters and the rows; whether it and the tree can come apart depends on the history of calls and on where a call stops, and a wrong number can make an array readable in another way.", "anchors": ["pystreed/prescriptive_policy_generation.py: _check_data, fit, score", "pystreed/base.py: fit, score", "src/tasks/prescriptive_policy.cpp: GetTestLeafCosts"]}
