{"claims": [
{"property": "C01", "status": "partial", "theorems": ["Streed.optimal_default_budget_partial", "Streed.optimal_depth_three", "Streed.bestScore_depth", "Streed.returned_tree_optimal_partial", "Streed.returned_optimal_depth_three", "Streed.default_fit_optimal", "Streed.returned_not_optimal", "Streed.no_upper_bound_not_optimal"], "note": "The value found by the search is proved optimal for every option setting except the depth-two solver without upper bounding, and for all option settings up to max_depth 3. With use_upper_bound=False and the depth-two solver the value found for max_depth 4 can be wrong: proved negation. The returned tree is proved optimal with the depth-two solver off, and with all default options up to max_depth 3. With all default options the returned tree for max_depth 4 can be worse than the optimum although is_optimal is reported: proved negation with a witness."},
{"property": "C02", "status": "partial", "theorems": ["Streed.optimal_node_limit_partial", "Streed.returned_node_limit_partial", "Streed.node_limit_not_optimal"], "note": "Proved with the depth-two solver off, for the value found by the search and for the returned tree; with it on the code is not optimal (negation with a witness)."},
{"property": "C03", "status": "partial", "theorems": ["Streed.optimal_leaf_size_partial", "Streed.returned_leaf_size_partial", "Streed.leaf_size_not_optimal"], "note": "Proved with similarity bound and depth-two solver off, for the value found by the search and for the returned tree; with default options the code is not optimal (negation with a witness)."},
{"property": "C04", "status": "partial", "theorems": ["Streed.optimal_all_trees_partial", "Streed.returned_node_limit_partial", "Streed.all_trees_not_optimal"], "note": "Proved with the depth-two solver off, for the value found by the search and for the returned tree; with default options the code is not optimal (negation with a witness)."},
{"property": "C05", "status": "proved", "theorems": ["Streed.returned_tree_within_limits"], "note": "All options, orders and clocks, default node budget."},
{"property": "C06", "status": "partial", "theorems": ["Streed.reported_score_is_tree_score", "Streed.returned_tree_optimal_partial", "Streed.returned_optimal_depth_three", "Streed.returned_value_depth_three", "Streed.returned_not_optimal"], "note": "First half (reported score is the score of the returned tree) proved for all settings. Second half (it equals the optimum found) proved with the depth-two solver off, and with the default options up to max_depth 3 (there also after a time-out: not worse than the value found); for max_depth 4 it is false (negation with a witness)."},
{"property": "C07", "status": "proved", "theorems": ["Streed.optimal_run_unlimited", "Streed.unlimited_reported", "Streed.timeout_reported"], "note": "For every clock, option, depth, node limit, leaf size and dataset of the accuracy classifier: a run reported as optimal is identical, including the returned tree, to the run without time limit; a run in which a check failed is not reported as optimal."},
{"property": "C08", "status": "partial", "theorems": ["Streed.options_do_not_matter_partial", "Streed.search_options_do_not_matter_depth_three", "Streed.options_do_not_matter_depth_three", "Streed.options_matter", "Streed.upper_bound_option_matters"], "note": "The value found by the search does not depend on the options (excluded beyond max_depth 3: depth-two solver without upper bounding, where it does: proved negation). The value of the returned tree does not depend on them up to max_depth 3 with the default caches; for max_depth 4 it does: proved negation with a witness."},
{"property": "C09", "status": "partial", "theorems": ["Streed.branch_answer_stored", "Streed.branch_answer_kept_partial", "Streed.transfer_drops_answer", "Streed.dataset_answer_stored", "Streed.dataset_answer_kept"], "note": "Every optimal answer returned by either cache was stored for a linked query (proved for all histories). Never losing an answer is proved for the dataset cache, and for the branch cache only for histories without transfers; transfer_drops_answer is a witness that a transfer replaces an optimal answer."},
{"property": "C10", "status": "proved", "theorems": ["Streed.memo_transparent", "Streed.memo_needs_paths"], "note": "The iterator memo of the dataset cache is transparent for every sequence of calls, under the hypothesis that equal branches come with equal data in one run; memo_needs_paths shows the hypothesis is needed."},
{"property": "C100", "status": "partial", "theorems": ["Streed.frame_order_free", "Streed.frame_extra_columns", "Streed.fair_frame_agree", "Streed.fair_array_first_agree", "Streed.predict_training_frame", "Streed.question_length_partial", "Streed.question_length_wrong", "Streed.question_length_differs"], "note": "The code violates the property: question_length_differs (arrays, fairness classifier, sensitive column not the first). Proved: for every estimator the features of a data frame depend neither on the order of its columns nor on further columns (frame_order_free, frame_extra_columns); on data frames, and on arrays with the sensitive column first, all methods of the fairness classifier agree (fair_frame_agree, fair_array_first_agree, question_length_partial). What the binarisers of categorical and continuous columns learn is a parameter."},
{"property": "C101", "status": "partial", "theorems": ["Streed.among_optimum", "Streed.optimal_among", "Streed.among_scores", "Streed.default_among_optimal", "Streed.other_rows_do_not_matter", "Streed.other_rows_harmful"], "note": "Proved for tasks that may branch on every feature (optimum, any budget and leaf size) and for accuracy (search, returned tree up to depth three with the default options, train value, test score and path length for every option and clock). With a sensitive feature the claim is false: the test rows decide whether a feature equal to it on the training rows can be used, and change the optimum (other_rows_harmful)."},
{"property": "C102", "status": "partial", "theorems": ["Streed.surv_fitted", "Streed.surv_consistent_partial", "Streed.surv_noTree", "Streed.surv_bad_parameter_mixes"], "note": "Proved after a successful last call and for sequences without calls that raise after the observations were accepted; violated otherwise: a call refused for a parameter mixes the old tree with the new baseline."},
{"property": "C103", "status": "partial", "theorems": ["Streed.tables_price", "Streed.specified_costs_partial", "Streed.costs_file_read", "Streed.unspecified_undefined", "Streed.gap_undefined", "Streed.reversed_accepted", "Streed.negative_undefined", "Streed.short_matrix_undefined", "Streed.missing_file_undefined", "Streed.short_row_repeated", "Streed.blank_attr_undefined", "Streed.bad_price_undefined"], "note": "Proved for every specification that divides the features among the attributes and has a cost for every pair of labels (zero diagonal, at most 46340 features), and for files written as documented. Other specifications are not refused; witnesses."},
{"property": "C104", "status": "partial", "theorems": ["Streed.argminVec_least", "Streed.vectors_accepted_iff", "Streed.vecCost_iff", "Streed.vectors_search", "Streed.vectors_score", "Streed.ragged_cases", "Streed.empty_vector_undefined"], "note": "Proved for all vectors given to fit and score; making a vector from an empty list is undefined."},
{"property": "C105", "status": "partial", "theorems": ["Streed.clf_fitted", "Streed.clf_noTree", "Streed.clf_same_classes", "Streed.clf_consistent_partial", "Streed.clf_bad_parameter_raises", "Streed.clf_bad_parameter_column", "Streed.clf_unread_mixes"], "note": "Proved after a successful last call and for sequences without calls that raise; violated otherwise, already after a call refused for a parameter."},
{"property": "C106", "status": "partial", "theorems": ["Streed.brew_ok", "Streed.leaf_colours_read", "Streed.brew_distinct_iff", "Streed.leaf_colours_differ_partial", "Streed.branch_colour_read", "Streed.branch_strength_partial", "Streed.many_classes_share", "Streed.clear_choice_white", "Streed.strength_not_monotone", "Streed.one_class_branch_raises", "Streed.short_component_unreadable"], "note": "The code violates the property: strength_not_monotone (a node whose best class costs nothing is drawn like a tie) and many_classes_share. Proved: one valid colour for each class (brew_ok, leaf_colours_read), different for different classes exactly up to 360 classes (brew_distinct_iff, leaf_colours_differ_partial), a valid colour for every branching node with two or more classes and any costs (branch_colour_read), and its strength where the least costs are at least a hundredth of the total (branch_strength_partial). Exact arithmetic: roundings of floating-point numbers are not modelled."},
{"property": "C107", "status": "partial", "theorems": ["Streed.shown_class_partial", "Streed.title_iff", "Streed.leaf_title_iff", "Streed.title_spec", "Streed.title_never_dearer", "Streed.cost_vectors_returned", "Streed.shown_class_not_predicted"], "note": "The code violates the property: shown_class_not_predicted. shown_class_partial proves it where all labels are considered (from Python if the last label is strictly cheapest for some row, with the command line always), up to classes that cost the same in a leaf. title_iff and title_spec hold for every tree and say what each picture shows; cost_vectors_returned gives the tree for every option and clock; title_never_dearer holds without the assumption. Costs are integers in small enough units; the sums of doubles in Python are exact in the model."},
{"property": "C108", "status": "partial", "theorems": ["Streed.vec_consistent_partial", "Streed.vec_fitted", "Streed.vec_noTree", "Streed.vec_refused", "Streed.vec_same_classes", "Streed.vec_params_raised", "Streed.vec_bad_parameter_raises", "Streed.vec_bad_parameter_accepts"], "note": "The code violates the property: vec_bad_parameter_raises and vec_bad_parameter_accepts (a call of fit refused because of a parameter changes the number of classes that score checks). vec_consistent_partial proves it for sequences of calls of which none raised, vec_fitted after every successful call whatever came before. Calls that raise change nothing if the costs themselves are refused (vec_refused) or have the same number of classes and a parameter is out of range (vec_same_classes)."},
{"property": "C109", "status": "partial", "theorems": ["Streed.draw_same_classes_partial", "Streed.draw_first", "Streed.draw_again", "Streed.draw_kept_iff", "Streed.colours_never_renewed", "Streed.drawing_differs_partial", "Streed.draw_more_classes_raises", "Streed.draw_depends_on_history", "Streed.draw_gap_raises"], "note": "The code violates the property: draw_more_classes_raises, draw_depends_on_history and draw_gap_raises (the colours of the first graph are kept, and there are as many as different labels). draw_same_classes_partial proves it for all sequences of calls with one number of classes, numbered from 0, and draw_again for further graphs of the same tree. draw_first and draw_kept_iff give the exact behaviour of the first graph and of all later ones. The tree tests only columns of the training rows, as every tree of the search does. Modelled for the classifier; the cost-sensitive, fairness and policy estimators have the same lines."},
{"property": "C11", "status": "proved", "theorems": ["Streed.cached_bounds_valid", "Streed.cached_bounds_valid_inside"], "note": "After every history of calls, and at the start, after the similarity update and at the end of every nested call inside one, every solution the caches hand out is attained by an allowed tree; while no time check has failed it is also optimal and every bound handed out is valid. After a time-out only the statement about solutions is proved. For the configurations covered by Good (totally ordered integer costs)."},
{"property": "C110", "status": "proved", "theorems": ["Streed.bars_spec", "Streed.bars_no_rows"], "note": "Costs are natural numbers in units small enough for all given costs; averages are exact. With labels of equal names matplotlib draws one bar over another, which is not modelled."},
{"property": "C111", "status": "partial", "theorems": ["Streed.pol_consistent_partial", "Streed.pol_fitted", "Streed.pol_documented", "Streed.pol_short_array", "Streed.pol_noTree", "Streed.pol_params_raised", "Streed.pol_bad_parameter_misreads"], "note": "The code violates the property: pol_bad_parameter_misreads (a call of fit refused because of a parameter changes the number of treatments that score reads arrays for). pol_consistent_partial proves it for sequences of calls of which none raised, pol_fitted and pol_documented after every successful call whatever came before. pol_short_array: without the columns for tests the score takes treatment 0 for the best. A call with a parameter out of range changes nothing if its array is refused or has as many treatments as before (pol_params_raised)."},
{"property": "C12", "status": "proved", "theorems": ["Streed.path_key_iff", "Streed.path_key_iff_set", "Streed.path_selects", "Streed.path_follow", "Streed.path_key_data"], "note": ""},
{"property": "C13", "status": "proved", "theorems": ["Streed.symIndex_inj", "Streed.symIndex_lt", "Streed.symIndex_surj"], "note": "Triangular index is a bijection onto its range."},
{"property": "C14", "status": "proved", "theorems": ["Streed.touched_in_range", "Streed.counts_exact", "Streed.costs_exact", "Streed.costs_exact_one"], "note": "Pair statistics equal the direct counts and costs."},
{"property": "C15", "status": "proved", "theorems": ["Streed.incremental_exact"], "note": "Incremental update equals recomputation over any history."},
{"property": "C16", "status": "proved", "theorems": ["Streed.difference_exact", "Streed.difference_mem", "Streed.difference_counts", "Streed.difference_apply"], "note": "Difference of two views."},
{"property": "C17", "status": "partial", "theorems": ["Streed.depth_one_optimal", "Streed.depth_two_optimal_partial", "Streed.depth_two_attained", "Streed.two_not_optimal", "Streed.three_not_optimal"], "note": "Exact for depth one and for depth two with three nodes and leaf size one. For a two-node budget and for larger leaf sizes the code is not exact: the negations are proved with witnesses."},
{"property": "C18", "status": "partial", "theorems": ["Streed.similarity_bound_partial", "Streed.similarity_not_bound", "Streed.regression_similarity_wrong", "Streed.Pw.line_similarity_not_bound"], "note": "Proved for leaf size one; false for larger leaf sizes, and for the cost-complexity regression task with merged instances (negations with witnesses); also false for lines in the leaves, which may extrapolate (line_similarity_not_bound)."},
{"property": "C19", "status": "partial", "theorems": ["Streed.accuracy_worst", "Streed.f1_worst", "Streed.parity_worst_partial", "Streed.parity_worst_wrong", "Streed.opportunity_worst_wrong", "Streed.costs_worst_partial", "Streed.costs_worst_wrong", "Streed.policy_worst", "Streed.instance_worst", "Streed.instance_worst_label_wrong", "Streed.regression_worst_partial", "Streed.regression_worst_wrong", "Streed.Pw.line_similarity_not_bound"], "note": "Holds for accuracy, F1, policies and the value stored per instance of instance-specific costs. False for the two fairness tasks, cost-sensitive classification and merged regression instances (negations proved with witnesses); the partial theorems state what does hold. False for lines in the leaves as well."},
{"property": "C20", "status": "partial", "theorems": ["Streed.subtract_first", "Streed.subtract_second", "Streed.subtract_tight", "Streed.front_subtraction_unsound"], "note": "Proved for totally ordered tasks (subtract_*). For partially ordered tasks the property is false: front_subtraction_unsound gives an F1 witness."},
{"property": "C21", "status": "proved", "theorems": ["Streed.distribution_fits", "Streed.distribution_covers", "Streed.distribution_covers_swapped", "Streed.distribution_nodup"], "note": ""},
{"property": "C22", "status": "partial", "theorems": ["Streed.front_nonDominated", "Streed.f1_front_exact", "Streed.front_uniques_smallest", "Streed.fairness_front_drops", "Streed.front_keeps_larger_tree"], "note": "Proved for every task whose dominance is a preorder with exact keys (instance: F1). front_uniques_smallest: the memo of values keeps the smallest tree seen for each value. False for the fairness tasks, whose dominance uses a tolerance and is not transitive: fairness_front_drops."},
{"property": "C23", "status": "partial", "theorems": ["Streed.root_front_best", "Streed.front_nonDominated_on", "Streed.root_front_fair_best", "Streed.root_front_fair_grid", "Streed.root_front_fair_wrong"], "note": "Proved for exact keys (F1 and other integer-valued tasks) and, for the fairness tasks, when every inserted value satisfies the constraint or the group scores lie on a grid coarser than the tolerance 1e-4. In general it fails for fairness: a value that violates the constraint can take the key of one that satisfies it."},
{"property": "C24", "status": "partial", "theorems": ["Streed.bounded_front_covers", "Streed.f1_addOrMerge_covers", "Streed.f1_addInvOrInvMerge_covers", "Streed.addOrInvMerge_sound", "Streed.addInvOrMerge_drops"], "note": "AddOrMerge and AddInvOrInvMerge cover every added value; the combination AddInvOrMerge loses values: addInvOrMerge_drops."},
{"property": "C25", "status": "partial", "theorems": ["Streed.preprocess_attained", "Streed.preprocess_lower", "Streed.preprocess_optimum", "Streed.preprocess_not_harmless"], "note": "Dropping redundant features keeps the optimum for feature-independent costs when all features are allowed; with a task that forbids features it does not (negation)."},
{"property": "C26", "status": "proved", "theorems": ["Streed.flip_tree", "Streed.flip_none", "Streed.flip_predict", "Streed.flip_predict_train", "Streed.predict_fresh"], "note": "Training and test side."},
{"property": "C27", "status": "proved", "theorems": ["Streed.split_groups", "Streed.split_sizes", "Streed.split_mem", "Streed.split_perm", "Streed.split_path", "Streed.splitter_exact"], "note": "Weights are not modelled: no task reads the view's weights."},
{"property": "C28", "status": "partial", "theorems": ["Streed.train_test_partition", "Streed.train_test_disjoint", "Streed.train_test_buckets", "Streed.train_test_size", "Streed.train_test_size_stratified", "Streed.train_test_defined", "Streed.stratified_regression_size_wrong", "Streed.stratified_regression_undefined"], "note": "Partition and bucket theorems for every mode; size theorems without stratification and with stratification on labels. Stratified regression is refuted (size far off for few instances, division by zero below ten)."},
{"property": "C29", "status": "partial", "theorems": ["Streed.kfold_tests_once", "Streed.kfold_train_is_rest", "Streed.kfold_buckets", "Streed.kfold_sizes", "Streed.kfold_sizes_stratified", "Streed.kfold_defined", "Streed.stratified_folds_wrong_bucket", "Streed.stratified_regression_folds_wrong"], "note": "Partition for every mode; sizes without stratification and per label; bucket correctness without stratification (the only mode the code calls). Stratified mode refuted for buckets, stratified regression for sizes."},
{"property": "C30", "status": "partial", "theorems": ["Streed.tuning_selects_best", "Streed.fold_scores_correct", "Streed.selectBest_spec", "Streed.selectBest_first", "Streed.tuning_undefined", "Streed.tuned_price_wrong", "Streed.tuned_price_linear"], "note": "Scores are exact rationals. Given that a tuning phase finishes, every entry of the score table is the one it should be and the choice is best on average; ties go to the first configuration except under <= comparison. tuning_undefined shows the one undefined case. The selected parameters are stored, but the final fit of some tasks still charges the price from before tuning (C77: tuned_price_linear, tuned_price_wrong)."},
{"property": "C31", "status": "partial", "theorems": ["Streed.queue_each_once", "Streed.queue_score_order_partial", "Streed.queue_not_sorted", "Streed.gini_order_complete", "Streed.gini_order_sorted"], "note": "Each feature once: proved for all scores. Order: proved for non-negative scores, which Gini scores are (exact arithmetic); false for negative scores (negation with a witness)."},
{"property": "C32", "status": "partial", "theorems": ["Streed.result_set_paired", "Streed.best_index_partial", "Streed.best_index_one", "Streed.best_index_wrong"], "note": "Pairing proved for every history. The best index is right for tasks preferring small scores and for single solutions; for tasks preferring large scores it is refuted (best_index_wrong)."},
{"property": "C33", "status": "proved", "theorems": ["Streed.feature_vector_consistent", "Streed.flip_twice"], "note": "Any history of flips and removals keeps the flag array and the ascending list of present features equal."},
{"property": "C34", "status": "proved", "theorems": ["Streed.pair_list_complete"], "note": "The pair list holds every unordered pair of present features once."},
{"property": "C35", "status": "proved", "theorems": ["Streed.key_identifies", "Streed.key_plain"], "note": "The bit set also has a wrong ClearBit (clearBit_wrong), which nothing calls."},
{"property": "C36", "status": "proved", "theorems": ["Streed.equiv_points_sound", "Streed.equiv_points_exact_partial", "Streed.equiv_points_defined", "Streed.equiv_points_empty_undefined", "Streed.groups_are_feature_vectors", "Streed.equiv_points_not_tight", "Streed.equiv_points_cache_stale", "Streed.equiv_points_cache_fresh"], "note": "The bound never exceeds the errors of any tree on any view, for every order the sort may leave; it is always defined on a non-empty view. equiv_points_exact_partial: it equals the errors of the best labelling of the groups when the first instance shares features and label with another; otherwise it can be weaker (equiv_points_not_tight). A value remembered for a branch is stale if a solver object is given other data (the Python layer always makes a new solver)."},
{"property": "C37", "status": "proved", "theorems": ["Streed.accuracy_leaf", "Streed.accuracy_pairwise", "Streed.accuracy_tree", "Streed.accuracy_score", "Streed.accuracy_score_undefined"], "note": "Rational arithmetic for doubles. The score of an empty data set is 0/0; accuracy_score_undefined records that."},
{"property": "C38", "status": "partial", "theorems": ["Streed.costs_leaf", "Streed.costs_pairwise", "Streed.costs_tree", "Streed.costs_diagonal_ignored"], "note": "Proved for every matrix with a zero diagonal. With a non-zero diagonal the direct leaf cost leaves out the correctly labelled instances while the pairwise one counts them; costs_diagonal_ignored is the witness."},
{"property": "C39", "status": "partial", "theorems": ["Streed.f1_tree", "Streed.f1_pairwise", "Streed.f1_score", "Streed.f1_score_undefined", "Streed.f1_front_max"], "note": "The score equals F1 whenever there is a positive label or a positive prediction. Otherwise the code divides zero by zero (f1_score_undefined)."},
{"property": "C40", "status": "proved", "theorems": ["Streed.parity_exact", "Streed.parity_score", "Streed.parity_children", "Streed.parity_pairwise", "Streed.parity_test_score_wrong"], "note": "Acceptance on the training data is exact. The score shown for test data divides by the training group sizes; parity_test_score_wrong is the witness."},
{"property": "C41", "status": "proved", "theorems": ["Streed.opportunity_exact", "Streed.opportunity_score", "Streed.opportunity_children"], "note": "Acceptance on the training data is exact, for non-empty groups of positives."},
{"property": "C42", "status": "partial", "theorems": ["Streed.regression_leaf", "Streed.regression_pairwise", "Streed.regression_empty_leaf", "Streed.merged_leaf"], "note": "Proved for every non-empty multiset, for the regression and the cost-complexity regression task. A leaf without instances is 0/0 in the direct computation (regression_empty_leaf)."},
{"property": "C43", "status": "partial", "theorems": ["Streed.merge_keeps", "Streed.merge_twice_wrong", "Streed.merge_twice_partial"], "note": "Merging keeps weight, target sum and sum of squares per feature vector. Repeating it does not give the same result, because the last group is written into the shared instance (merge_twice_wrong)."},
{"property": "C44", "status": "partial", "theorems": ["Streed.policy_order", "Streed.policy_nonneg", "Streed.policy_pairwise", "Streed.policy_test", "Streed.policy_no_zero", "Streed.policy_unusable"], "note": "Costs are non-negative, and a smaller cost is a larger estimated policy value. The clause that one cost per instance is zero is false (policy_no_zero): one minimum is shared by all instances. With a propensity score below 1e-6 the doubly robust scores are all zero (policy_unusable)."},
{"property": "C45", "status": "partial", "theorems": ["Streed.hazard_nelson_aalen", "Streed.hazard_positive_mono", "Streed.hazard_tolerance"], "note": "Positive, non-decreasing and equal to the Nelson-Aalen estimate, with a look-ahead of a millionth (hazard_tolerance shows that this matters)."},
{"property": "C46", "status": "partial", "theorems": ["Streed.predict_history_partial", "Streed.predict_twice_undefined", "Streed.predict_twice_stale"], "note": "Right for histories in which consecutive calls have different row counts. Two consecutive calls with equal row counts read destroyed instances (undefined behaviour); with the data kept alive the answer is stale."},
{"property": "C47", "status": "partial", "theorems": ["Streed.fit_after_history", "Streed.solve_twice_differs"], "note": "Proved for the Python estimator, which always builds a new solver. The C++ solver itself violates it (witness)."},
{"property": "C48", "status": "partial", "theorems": ["Streed.read_written", "Streed.read_selected", "Streed.read_short", "Streed.read_written_any_task", "Streed.read_selected_any_task", "Streed.read_short_any_task", "Streed.readLineX_plain", "Streed.digit_rejected", "Streed.view_complete", "Streed.view_complete_real", "Streed.letter_accepted", "Streed.malformed_not_rejected", "Streed.short_row_undefined", "Streed.blank_line_undefined", "Streed.wide_separator_undefined", "Streed.long_row_cut", "Streed.negative_label_undefined", "Streed.missing_cost_accepted", "Streed.missing_costs_repeated", "Streed.costs_read_as_features", "Streed.real_label_undefined", "Streed.missing_feature_undefined"], "note": "Every written dataset of every task (integer or real labels, costs, policies, events, continuous features) is read back, also duplicated, truncated and with selected lines; digits other than 0 and 1 are rejected. Malformed text is not always rejected: witnesses. Missing: rounding of decimal numbers to doubles."},
{"property": "C49", "status": "proved", "theorems": ["Streed.columns_match_names", "Streed.thresholds_of_column", "Streed.thresholds_increase", "Streed.tree_thresholds", "Streed.columns_nested", "Streed.thresholds_count", "Streed.binarisation_lossless", "Streed.one_category", "Streed.unseen_category", "Streed.two_categories"], "note": "Exact rational arithmetic; thresholds of the strategy tree come from scikit-learn and are an input (it is proved that each column gets its own, in order)."},
{"property": "C50", "status": "partial", "theorems": ["Streed.declared_ok", "Streed.settings_checked_partial", "Streed.settings_rejected_partial", "Streed.nan_accepted", "Streed.settings_not_checked", "Streed.int_value", "Streed.flt_value_partial", "Streed.bool_value", "Streed.str_value", "Streed.check_passed", "Streed.parse_is_run", "Streed.text_read_as_zero", "Streed.missing_value_undefined", "Streed.tuning_time_exits"], "note": "Every sequence of assignments: accepted exactly when each is valid, and the value afterwards is the last one assigned or the default, in range. False for not-a-number (nan_accepted, settings_not_checked); on the command line text is read as zero and a missing value is undefined. tuning_time_exits: a tuned run that exceeds its time limit exits the process. Not stated by any theorem: which value a text on the command line stands for (real numbers, integers beyond 64 bits)."},
{"property": "C51", "status": "partial", "theorems": ["Streed.penalised_optimal_partial", "Streed.penalised_depth_two_partial", "Streed.penalised_not_optimal", "Streed.penalised_returned_best_partial", "Streed.penalised_returned", "Streed.penalised_returns"], "note": "Proved for the value found by the search without lower bounds for every depth, and for depth at most two with any options; for the returned tree without lower bounds and without the depth-two solver. Whatever the options, the reported value is the one of the returned tree and its leaves predict a most frequent class. The full claim fails for the default options at depth three (penalised_not_optimal). Prices are integer multiples; rounding is not modelled."},
{"property": "C52", "status": "partial", "theorems": ["Streed.linear_leaf_finite_iff", "Streed.linear_leaf_finite_partial", "Streed.linear_leaf_not_finite", "Streed.rewritten_predicts_partial", "Streed.tiny_feature_wrong"], "note": "The claim is false: a constant continuous feature makes every returned leaf model infinite or not-a-number (linear_leaf_not_finite). Proved: finite exactly when no feature is constant, and the rewritten model predicts the same when all standard deviations are at least 1e-6. Doubles are real numbers."},
{"property": "C53", "status": "proved", "theorems": ["Streed.shape_queries", "Streed.shape_bounds", "Streed.one_leaf"], "note": ""},
{"property": "C54", "status": "proved", "theorems": ["Streed.reduceBudget_keeps", "Streed.reduceBudget_le"], "note": "Integer values; the double version adds 1e-6 before dividing."},
{"property": "C55", "status": "partial", "theorems": ["Streed.fair_tree_avoids_partial", "Streed.parity_tree_tests_sensitive", "Streed.opportunity_tree_tests_sensitive"], "note": "Only the two fairness tasks forbid a feature. False for the default options: the depth-two solver constructs its tree without asking which features may be used, and the returned tree tests the sensitive feature (the two _tests_sensitive theorems). Proved for every data set, limit and all other options when the depth-two solver is off. That the values found are always those of trees avoiding the feature is part of C60."},
{"property": "C56", "status": "partial", "theorems": ["Streed.survival_evaluate", "Streed.survival_leaf", "Streed.survival_pairwise", "Streed.survival_leaf_no_event"], "note": "Proved over the reals for leaves with an event. A leaf without events costs 0 in training and 1/2 when evaluated (survival_leaf_no_event)."},
{"property": "C57", "status": "partial", "theorems": ["Streed.line_leaf_optimal_partial", "Streed.line_leaf_exists", "Streed.line_leaf_reported", "Streed.line_terminal_agrees", "Streed.line_terminal_difference", "Streed.line_variance_nonneg", "Streed.line_leaf_not_optimal"], "note": "Proved for features that are constant on the leaf or have a spread of at least 1e-3; below that the code ignores the feature (line_leaf_not_optimal). Reported cost and agreement with the depth-two search are proved without that condition. Doubles are rationals; the merging loop is represented by its result, one sum per group."},
{"property": "C58", "status": "partial", "theorems": ["Streed.glm_refuses_constant", "Streed.glm_refuses_flat", "Streed.glm_not_worse_than_constant_partial", "Streed.glm_cost_exact_partial", "Streed.glm_one_feature_optimal_partial", "Streed.glm_not_optimal", "Streed.glm_left_out", "Streed.glm_stop_error_partial", "Streed.glm_rounds_descend_partial"], "note": "The claim is false: leaves with equal targets get no model (glm_refuses_constant) and with two features a stale coefficient makes the model suboptimal (glm_not_optimal). Proved: never worse than a constant and exact cost when no covariance or coefficient lies strictly between 0 and 1e-4; optimal for one varying feature. Doubles are rationals. Features left out vary by less than 1e-4; rounds never raise the error; the error used to stop is too large by the squared deviation of the targets for each feature used beyond the first (glm_stop_error_partial)."},
{"property": "C59", "status": "partial", "theorems": ["Streed.f1_search_optimal_partial", "Streed.f1_search_sound", "Streed.f1_search_not_optimal", "Streed.f1_general_not_optimal", "Streed.f1_node_limit_not_optimal", "Streed.f1_leaf_size_not_optimal"], "note": "False for the default options: with 21 instances, five features and depth 3 the model of the search ends with F1 22/24 although 24/26 is possible, because a front is dropped when each member of the upper bound is better than some member of the front (f1_search_not_optimal). Also false without the depth-two solver, with a node limit, and with a minimum leaf size of two. Proved for every option: each value found is that of a tree within the limits (f1_search_sound). Proved with bounding and the depth-two solver off, for every data set, limit, cache setting and feature order: the value is the best. The tree returned is the subject of C61."},
{"property": "C60", "status": "partial", "theorems": ["Streed.parity_search_optimal_partial", "Streed.opportunity_search_optimal_partial", "Streed.parity_search_sound", "Streed.opportunity_search_sound", "Streed.parity_search_not_optimal", "Streed.opportunity_search_not_optimal", "Streed.fair_extremes_wrong"], "note": "False for the default options: the extreme points used in subtracting upper bounds take 1 for the largest group score although scores go up to 2 (the two _not_optimal theorems, fair_extremes_wrong). Proved for every option and every training set with both groups present: each value found is that of a fair tree within the limits that does not test the sensitive feature (the two _sound theorems). Proved with bounds and the depth-two solver off, for group sizes whose least common multiple is below 10000 (so that the 1e-4 tolerance is exact), every limit >= 0, caching setting, feature order, node limit and minimum leaf size: the value is the best. Values are exact rationals. The tree returned is the subject of C61."},
{"property": "C61", "status": "partial", "theorems": ["Streed.f1_tree_optimal_partial", "Streed.parity_tree_optimal_partial", "Streed.opportunity_tree_optimal_partial", "Streed.parity_tree_label_wrong", "Streed.opportunity_tree_label_wrong", "Streed.parity_tree_label_wrong_general", "Streed.f1_tree_label_wrong"], "note": "False for the default options: the construction starts at the largest depth searched, looks for the value in fronts cut off by the bound that this value gave, does not find it, and returns leaves labelled INT32_MAX (the _label_wrong theorems). Proved with bounds and the depth-two solver off, for every data set, limit, feature order and minimum leaf size, when caching is off or the node limit is 2^depth - 1. Missing: a binding node limit together with caching."},
{"property": "C62", "status": "partial", "theorems": ["Streed.dataset_front_answer", "Streed.branch_front_answer_partial", "Streed.branch_front_stored", "Streed.transfer_front_answer", "Streed.front_bound_recorded", "Streed.front_transfer_drops"], "note": "Exact answer proved for the dataset cache (the default) and for the branch cache without transfers. With transfers every answer was stored with that budget for a linked path and an answer of the source is known at the destination, but a front stored for the destination can be lost: front_transfer_drops. Bounds handed out were recorded for at least the budget asked for."},
{"property": "C63", "status": "partial", "theorems": ["Streed.returned_tree_node_limit_partial"], "note": "Proved for all data, limits, leaf sizes, orders, clocks and bounding options with the branch cache off (the default), and max_depth at most three (the default) or no caches. Missing: the dataset cache with max_depth above three, and the branch cache."},
{"property": "C64", "status": "proved", "theorems": ["Streed.prompt_stop", "Streed.prompt_after_first_failure"], "note": "Counts time checks of the search; the work between two checks and the construction of the returned tree afterwards are not counted."},
{"property": "C65", "status": "partial", "theorems": ["Streed.real_costs_optimal_partial", "Streed.real_costs_node_limit_partial", "Streed.penalised_tolerance_partial", "Streed.real_costs_not_optimal"], "note": "Proved for the search of the instance cost-sensitive task with the tolerant comparisons of doubles when the costs are multiples of a unit and add up to less than 10^4 units, default node budget with every option (depth-two solver only with upper bounding; not branch cache and similarity bound together), or any node limit without the depth-two solver. False for larger costs (witness); C69 bounds the loss there. Rounding of doubles is not modelled. The labels are those of the data view; from Python some may be missing (C97)."},
{"property": "C66", "status": "partial", "theorems": ["Streed.costs_search_partial", "Streed.costs_search_plain_partial", "Streed.costs_search_flat_partial", "Streed.costs_search_twins", "Streed.costs_search_stale", "Streed.costs_search_unattained", "Streed.costs_search_bound", "Streed.costs_search_dataset_cache"], "note": "Proved for the default options at depth at most three on data where no two features split alike; for all depths, node limits and leaf sizes without the depth-two solver and lower bounds; for all depths with the depth-two solver and without lower bounds if no attributes share a group. The full claim is false; witnesses: twin features, stale depth-two results (too high a total, and a total no tree has), the stored bound that leaves out the leaf, dataset caching."},
{"property": "C67", "status": "proved", "theorems": ["Streed.regression_bound_valid", "Streed.regression_bound_exact", "Streed.smawk_entry_wrong"], "note": "For every tree, any leaf values and any history of calls on one branch; exact where fewer than fifty leaves or groups are possible. Doubles are rationals; the number of nodes noted with the bound is not modelled."},
{"property": "C68", "status": "partial", "theorems": ["Streed.regression_search_partial", "Streed.regression_depth_two_partial", "Streed.regression_leaf_cost", "Streed.units_exist", "Streed.regression_not_optimal"], "note": "Optimal over all regression trees without lower bounds at any depth, and at depth at most two with the equivalent-points bound and any other options; for the default k-means bound the negation is proved at depth one (the price of a node is counted twice). Missing: lower bounds at depth above two, leaf sizes above one, tolerance of comparisons."},
{"property": "C69", "status": "partial", "theorems": ["Streed.real_costs_within_partial", "Streed.real_costs_within_limit_partial", "Streed.penalised_within_partial", "Streed.regression_within_partial", "Streed.similarity_not_close"], "note": "Instance costs: any options except the similarity bound and the depth-two solver without upper bounding (node limits: without the depth-two solver). Penalised errors and regression: without lower bounds, with upper bounding. Value reported by the search; costs are rationals (no rounding). The statement for every search option is false: similarity_not_close shows a run with the similarity bound and without the depth-two solver that reports 90 as optimal where a tree of cost 0 exists. Missing: whether the similarity bound together with the depth-two solver (the default) can do the same at depths above three."},
{"property": "C70", "status": "partial", "theorems": ["Streed.policy_search_partial", "Streed.policy_within_partial", "Streed.policy_units_exist", "Streed.policy_search_empty"], "note": "Exact for scores that are multiples of a unit and whose spread adds up to less than 10^4 units, with every option except the depth-two solver without upper bounding and the branch cache together with the similarity bound; up to the tolerance of C69 for all scores without the similarity bound. Default node budget. False for costs of INT32_MAX and above (witness). About the cost found by the search; rounding is not modelled. The treatments are those of the data view; from Python, those above the largest historic one are missing (C97)."},
{"property": "C71", "status": "partial", "theorems": ["Streed.proba_frequencies", "Streed.proba_prefers_prediction", "Streed.proba_after_fit", "Streed.proba_after_default_fit", "Streed.proba_after_penalised_fit", "Streed.optimal_majority", "Streed.f1_proba_raises", "Streed.label_gap_raises"], "note": "Proved for every tree with majority leaves and labels 0..n-1, and so after every accuracy or cost-complex-accuracy fit that returns a tree, whatever its options, limits and clock. The property fails for the F1 task (assertion) and for labels that are not consecutive (an error is raised whatever the tree); both are proved. These are all tasks of the classifier. Missing: probabilities as doubles."},
{"property": "C72", "status": "partial", "theorems": ["Streed.treeString_injective", "Streed.printTree_injective", "Streed.default_readable", "Streed.print_reads_predict", "Streed.default_print_reads_predict", "Streed.printTree_length", "Streed.dot_leaf_iff", "Streed.dot_pred_iff", "Streed.dot_edge_iff", "Streed.dot_reads_predict", "Streed.nodeId_injective", "Streed.exportDot_injective", "Streed.first_export_ok", "Streed.close_thresholds_printed_alike", "Streed.same_text_printed_alike", "Streed.named_comparison_raises", "Streed.named_threshold_raises", "Streed.export_after_refit_raises"], "note": "Proved for every tree: text, printed form (default names, or any names that can be told apart) and graph determine the tree, and reading the printed form or the graph gives the prediction. The property fails with generated threshold names that round to the same number, for column names containing ' <= ' and for an export after a refit with more classes; all proved by witnesses. Missing: colours and layout, numbers with exponents, real-valued labels."},
{"property": "C73", "status": "partial", "theorems": ["Streed.named_column_measured", "Streed.named_column_again", "Streed.indexed_column_measured", "Streed.array_column_measured", "Streed.moveFirstFrame_perm", "Streed.moveFirstArray_perm", "Streed.other_column_measured", "Streed.second_fit_other_column", "Streed.negative_position_keeps_column", "Streed.categorical_raises"], "note": "Proved for sensitive columns with values 0 and 1: by name for every fit, by position for arrays and for the first fit on a data frame; no column is lost or doubled. The property fails for other columns whenever some column is binary (proved in general), for a second fit by position on a data frame (proved in general), and for negative positions of arrays (witness)."},
{"property": "C74", "status": "partial", "theorems": ["Streed.baseline_nelson_aalen", "Streed.baselines_agree", "Streed.baselines_differ", "Streed.baseline_positive_mono", "Streed.hazard_prediction", "Streed.survival_prediction", "Streed.risk_order"], "note": "Proved for every training set with non-negative times and every positive hazard ratio. That training and prediction use the same baseline is proved at times that no event follows within a millionth and refuted by a witness otherwise. Missing: rounding, the step functions of scikit-survival."},
{"property": "C75", "status": "proved", "theorems": ["Streed.leaf_majority", "Streed.penalised_returned"], "note": "Proved for every fit of the accuracy task and of the complexity-penalised one with exact comparisons, any options, node limit and clock; max_num_nodes must fit the depth, which the Python layer checks."},
{"property": "C76", "status": "partial", "theorems": ["Streed.costs_returned", "Streed.costs_returns", "Streed.policy_returned", "Streed.policy_returns", "Streed.penalised_returned_tol", "Streed.penalised_returns_tol", "Streed.regression_returned", "Streed.regression_returns"], "note": "Proved for all four tasks with tolerant comparisons, all options, any clock and initial upper bound. Missing: rounding of doubles (sums are exact rationals in a common unit); for regression minimum leaf sizes above one and a k-means bound that changes with the number of nodes asked for (any fixed number is covered)."},
{"property": "C77", "status": "partial", "theorems": ["Streed.plain_price", "Streed.tuned_price_accuracy", "Streed.tuned_price_linear", "Streed.tuned_price_merging", "Streed.tuned_data_merging", "Streed.tuned_price_wrong", "Streed.tuned_price_partial", "Streed.simple_ridge_ignored"], "note": "Classification always charges the tuned price. For piecewise-linear regression the tuned cost-complexity is ignored on every training set (tuned_price_linear); for the two merging tasks the exact condition is proved (tuned_price_merging). The data of the final fit are right. Which configuration tuning selects is C30."},
{"property": "C78", "status": "partial", "theorems": ["Streed.tuning_rows", "Streed.tuning_rows_partial", "Streed.tuning_rows_lost", "Streed.tuning_folds_defined"], "note": "For the tasks that merge rows: the exact rows used are proved (tuning_rows), the full property is refuted (tuning_rows_lost) and holds when no feature vector repeats. The other tasks split the original rows (C29)."},
{"property": "C79", "status": "partial", "theorems": ["Streed.plain_leaf", "Streed.plain_returned", "Streed.plain_returns", "Streed.plain_within_partial", "Streed.plain_exact_partial"], "note": "Limits, reported squared error and leaf means hold for every option, clock and upper bound. Least squared error up to the tolerance of the comparisons, without the similarity bound, and with the depth-two solver for leaf size one, upper bounding and the default node limit; exactly if the targets are few multiples of a unit."},
{"property": "C80", "status": "partial", "theorems": ["Streed.tiny_statistics", "Streed.tiny_costs_ignored", "Streed.scale_not_free", "Streed.tiny_costs_partial"], "note": "Fails: tiny_costs_ignored shows what happens for all data when no cost exceeds 1e-6; scale_not_free is the negation. The partial theorem covers costs that are zero or above 1e-6, for at most three nodes with the depth-two solver."},
{"property": "C81", "status": "proved", "theorems": ["Streed.predict_any_order", "Streed.predict_extra_columns", "Streed.predict_row_alone", "Streed.fit_then_predict", "Streed.array_order_matters", "Streed.declared_binary_is_doubled", "Streed.bitOf_whole"], "note": "Data frames with distinct column names; numpy arrays are read by position (array_order_matters). The tests made for a column are parameters."},
{"property": "C82", "status": "partial", "theorems": ["Streed.predict_uses_fitted_columns_partial", "Streed.linPredict_defined", "Streed.refit_keeps_columns", "Streed.refit_ignores_data", "Streed.values_fit_stores_nothing", "Streed.values_columns_depend_on_batch", "Streed.predict_changes_columns"], "note": "Holds after a first fit with named or detected columns; a second fit keeps the first columns, and columns given as values are not remembered."},
{"property": "C83", "status": "partial", "theorems": ["Streed.labels_grouped_partial", "Streed.label_minus_one_undefined", "Streed.label_below_raises"], "note": "Holds for labels that are not negative; -1 is undefined behaviour, below -1 an exception."},
{"property": "C84", "status": "partial", "theorems": ["Streed.Pw.line_sound", "Streed.Pw.line_near_optimal_partial", "Streed.Pw.line_single_leaf", "Streed.Pw.line_default_not_optimal", "Streed.Pw.exact_exists", "Streed.Pw.line_similarity_not_optimal", "Streed.Pw.line_similarity_not_bound", "Streed.Pw.line_returned", "Streed.Pw.line_returned_near_optimal_partial"], "note": "Limits and reported cost hold for all options. The tree built from the solution exists and is legal and within the depth limit for all options and also when the time runs out (line_returned). Near-optimality of the solution and of the tree built from it needs the lower bounds off; with the default bounds it fails (line_default_not_optimal), and a single line that costs less than three prices always ends the search. No rounding: costs are multiples of a unit, which exists for all data. The similarity bound alone also misses the best tree: a run with free nodes ends above 11 where 0 is possible (line_similarity_not_optimal)."},
{"property": "C85", "status": "partial", "theorems": ["Streed.Pw.glm_sound", "Streed.Pw.glm_equal_targets_none", "Streed.Pw.glm_returned_partial", "Streed.Pw.glm_near_optimal_partial", "Streed.Pw.glm_single_leaf", "Streed.Pw.glm_default_not_optimal", "Streed.Pw.glm_constant_sides", "Streed.Pw.glm_similarity_allowance_partial"], "note": "Limits and reported cost proved for all options. False: equal targets give no tree, groups with equal targets cannot be leaves, and with the default bounds the best tree is missed (witnesses). Existence and near-optimality (without lower bounds) proved if every large enough group has a model. Missing: optimality with lower bounds, groups without a model."},
{"property": "C86", "status": "partial", "theorems": ["Streed.surv_leaf", "Streed.surv_returned", "Streed.surv_returns", "Streed.surv_within_partial", "Streed.surv_log_exists", "Streed.surv_score_worse", "Streed.surv_score_worse_real"], "note": "Limits, existence and the reported loss proved for all options. False for the reported loss: leaves without an event are free in the search and count one half when scored (witness). The searched loss is near the least one: partial, the depth-two solver only with its default limits. The logarithm is a rational function below the tangents; such functions exist arbitrarily close to the real one."},
{"property": "C87", "status": "partial", "theorems": ["Streed.est_fitted", "Streed.est_consistent_partial", "Streed.est_noTree_keeps_tree", "Streed.est_new_is_fitted", "Streed.est_raised_mixes", "Streed.est_raised_undefined", "Streed.est_raised_no_predictions"], "note": "After a successful fit proved for every history. False otherwise: a new estimator reports that it is fitted, a fit without a tree keeps the old tree, a fit that raises mixes the old tree with new thresholds or makes predict undefined (witnesses). Consistency proved for histories in which no call raised after its parameters were accepted."},
{"property": "C88", "status": "partial", "theorems": ["Streed.declared_categorical_partial", "Streed.declared_ignored", "Streed.declared_raises"], "note": "Proved for the classifier, policy, regression, linear regression and survival estimators. False for the others: two raise and one ignores the argument."},
{"property": "C89", "status": "partial", "theorems": ["Streed.score_accuracy", "Streed.score_no_rows", "Streed.question_length", "Streed.question_length_leaf", "Streed.score_f1_partial", "Streed.score_f1_undefined", "Streed.score_parity_partial", "Streed.score_parity_small", "Streed.score_parity_large", "Streed.score_parity_twice", "Streed.score_parity_undefined", "Streed.score_opportunity_partial", "Streed.score_opportunity_small", "Streed.score_opportunity_large", "Streed.score_opportunity_undefined", "Streed.predict_opportunity_undefined"], "note": "Accuracy and question length: all trees, flips and rows. F1-score: rows of two classes, at least one positive. Fairness: groups as large as in the training data. False otherwise, for every tree: the group sizes of the training data are used, and data without positive rows are read out of range, as is every prediction with equality of opportunity."},
{"property": "C90", "status": "partial", "theorems": ["Streed.score_costs_partial", "Streed.score_costs_one_class", "Streed.score_costs_new_class", "Streed.costs_total", "Streed.score_instance", "Streed.score_instance_twice", "Streed.score_policy_partial", "Streed.score_policy_unknown", "Streed.score_regression", "Streed.score_regression_penalised"], "note": "Regression: mean squared error, for all trees, flips and rows. Cost-sensitive: proved when the matrix covers the classes and the standard cost is not zero. Policies: when best treatments are given; otherwise treatment 0 counts as best (proved for all trees). Instance costs: the score is proved to be the total, not the average. False otherwise: division by zero for one class and free features, a class beyond the matrix is read out of range. Missing: rounding. Lines, linear models and survival are C92."},
{"property": "C91", "status": "partial", "theorems": ["Streed.timed_f1_sound", "Streed.timed_parity_sound", "Streed.timed_opportunity_sound", "Streed.timed_proven", "Streed.timed_out_not_proven", "Streed.timed_in_time", "Streed.timed_proven_trees", "Streed.timed_stops", "Streed.timed_fair_avoids_partial", "Streed.timed_f1_label_wrong", "Streed.timed_f1_label_wrong_plain", "Streed.timed_opportunity_label_wrong"], "note": "All parts hold for every clock and all options except the last: after a time-out the returned tree may have leaves with the label INT32_MAX (three witnesses)."},
{"property": "C92", "status": "partial", "theorems": ["Streed.score_lines_partial", "Streed.score_lines", "Streed.score_lines_penalty", "Streed.score_lines_perfect", "Streed.score_linear", "Streed.score_survival"], "note": "Linear models and survival: all trees, flips and rows. Lines: proved without ridge penalty. With one the score also counts the penalty of the slope of every leaf, so it is larger than the mean squared error (proved for every tree with a slope in a feature that varies)."},
{"property": "C93", "status": "proved", "theorems": ["Streed.leaf_memory_exact", "Streed.leaf_memory_used", "Streed.leaf_memory_needs_root"], "note": "For all sequences of runs, data, penalties and call orders. That the first leaf call of a run is for the root is taken from solver.cpp:88-99 and 212-244 and is part of the model; leaf_memory_needs_root shows it is needed."},
{"property": "C94", "status": "partial", "theorems": ["Streed.f1_diff_exact", "Streed.f1_diff_trees", "Streed.f1_diff_overflow", "Streed.f1_container_in_range", "Streed.f1_extreme_overflow", "Streed.f1_full_container_overflow", "Streed.f1_bound_overflow", "Streed.fair_hash_defined", "Streed.fair_worst_hash", "Streed.fair_extreme_overflow", "Streed.fair_bound_overflow", "Streed.f1_wrapped_not_optimal", "Streed.parity_wrapped_not_optimal", "Streed.opportunity_wrapped_not_optimal"], "note": "Proved for containers that hold only values of trees (up to 46340 rows, exact bound). The code violates it for upper bounds (extreme points with INT32_MAX errors) and for the hash code of the worst fairness value; negations are proved with witnesses. Not joined with the whole search: the witnesses are calls of the bound subtraction on values of trees, not a run of fit."},
{"property": "C95", "status": "partial", "theorems": ["Streed.Rows.fit_and_score_rows", "Streed.Rows.plain_rows", "Streed.Rows.target_rows", "Streed.Rows.survival_rows", "Streed.Rows.line_rows", "Streed.Rows.predict_rows", "Streed.Rows.predict_undefined", "Streed.Rows.together_get", "Streed.Rows.line_values_undefined", "Streed.Rows.predict_with_extra_undefined", "Streed.Rows.predict_extra_accepted"], "note": "Proved with exact outcomes for fit and score of all tasks (for linear leaves with columns taken from the rows) and for predict without extra data. The code violates it for columns given as values and for extra data given to predict: exact condition for an access out of range. Shapes and classes of values are not modelled."},
{"property": "C96", "status": "partial", "theorems": ["Streed.policy_array_read", "Streed.policy_score_array_read", "Streed.ppg_row_read", "Streed.policy_array_refused", "Streed.policy_array_misread", "Streed.policy_misread_case", "Streed.policy_gap_undefined", "Streed.pyInt_cut"], "note": "Proved if every treatment occurs in the training data, and for new data after such a fit. The code violates it otherwise: the number of treatments is counted in the first column, so an array in which only n of K treatments occur is refused, or misread without an error if K = 2n+1 (predictions taken for best treatment and true outcomes). Treatments not numbered from 0 without gaps make the task read scores out of range."},
{"property": "C97", "status": "partial", "theorems": ["Streed.pyLabels_iff", "Streed.pyLabels_all", "Streed.python_costs_optimal_partial", "Streed.cost_vectors_found", "Streed.file_costs_optimal", "Streed.unused_label_missed", "Streed.new_treatment_never_given", "Streed.new_treatment_missed"], "note": "Proved for cost vectors if the last label is cheapest for some row, and for the command line. The code violates it otherwise: labels above the largest one that is cheapest for some row are never tried from Python, and treatments above the largest historic one are never recommended, although the run reports is_optimal."},
{"property": "C98", "status": "partial", "theorems": ["Streed.HMap.find_eq_last", "Streed.Hash.branch_cache_lookup", "Streed.Hash.split_cache_lookup", "Streed.Hash.dataset_cache_lookup", "Streed.Hash.store_lookup", "Streed.Hash.remember_valid", "Streed.Hash.same_eq", "Streed.Hash.branchHash17_eq", "Streed.Hash.branch_hash_undefined", "Streed.Hash.shl17_some_iff"], "note": "Proved for every history of the branch cache, the split cache and the dataset cache, and that the association lists of the search models answer in the same way. The last clause is violated: under the rules of C++17 the hash of every branch with two or more decisions is undefined (left shift of a negative int); compilers that define the shift compute the wrapping hash used here. Erasing entries is not modelled; the caches only clear whole tables."},
{"property": "C99", "status": "partial", "theorems": ["Streed.settings_outcome_partial", "Streed.ready_passed", "Streed.refused_raises", "Streed.accepted_iff", "Streed.regressor_ends", "Streed.long_time_ends", "Streed.settings_end"], "note": "The code violates the property: settings_end. settings_outcome_partial gives the exact outcome for all settings in the documented ranges whose integers fit 32 bits: the process ends iff the time limit is above 2147483647 or a priced task has a limit on the nodes below what the depth allows and a price of at least 1e-6; otherwise the solver gets every setting as given (ready_passed says this for every settings that reach the solver). Settings out of range raise an exception (refused_raises). The interval test of scikit-learn is modelled from its documentation; flags are assumed to be Booleans."}
]}
