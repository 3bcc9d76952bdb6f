{
 "claims": [
  {
   "property": "C01",
   "status": "proved",
   "theorems": [
    "Orp.Bloom.C01_no_false_negative"
   ],
   "note": ""
  },
  {
   "property": "C02",
   "status": "proved",
   "theorems": [
    "Orp.Bloom.C02_exact_answer",
    "Orp.Bloom.C02_exact_answer_new"
   ],
   "note": ""
  },
  {
   "property": "C03",
   "status": "proved",
   "theorems": [
    "Orp.Bloom.C03_clear_is_new",
    "Orp.Bloom.C03_clear_finds_nothing"
   ],
   "note": ""
  },
  {
   "property": "C04",
   "status": "proved",
   "theorems": [
    "Orp.Bloom.C04_set_exact",
    "Orp.Bloom.C04_set_reads_bitSize_bytes"
   ],
   "note": ""
  },
  {
   "property": "C05",
   "status": "proved",
   "theorems": [
    "Orp.Bloom.C05_order_and_repetition_irrelevant"
   ],
   "note": ""
  },
  {
   "property": "C06",
   "status": "proved",
   "theorems": [
    "Orp.Bloom.C06_safe",
    "Orp.Bloom.C06_bad_hash_asserts"
   ],
   "note": ""
  },
  {
   "property": "C07",
   "status": "proved",
   "theorems": [
    "Orp.Cuckoo.C07_entries_do_not_interfere",
    "Orp.Cuckoo.C07_too_wide_is_truncated"
   ],
   "note": ""
  },
  {
   "property": "C08",
   "status": "proved",
   "theorems": [
    "Orp.Cuckoo.C08_no_false_negative"
   ],
   "note": ""
  },
  {
   "property": "C09",
   "status": "proved",
   "theorems": [
    "Orp.Cuckoo.C09_refines_bag",
    "Orp.Cuckoo.C09_exact_answer"
   ],
   "note": ""
  },
  {
   "property": "C10",
   "status": "partial",
   "theorems": [
    "Orp.Cuckoo.C10_failed_add_loses_one_key_partial",
    "Orp.Cuckoo.C10_failed_add_loses_element"
   ],
   "note": "The property is false of the code: the second theorem is a counterexample history; the first shows that exactly one key is lost."
  },
  {
   "property": "C11",
   "status": "proved",
   "theorems": [
    "Orp.Cuckoo.C11_room_means_success",
    "Orp.Cuckoo.C11_capacity"
   ],
   "note": ""
  },
  {
   "property": "C12",
   "status": "proved",
   "theorems": [
    "Orp.Cuckoo.C12_in_bounds",
    "Orp.Cuckoo.C12_bucket_count_must_be_power_of_two"
   ],
   "note": "The power-of-two requirement is not documented by the class; the second theorem shows it is needed."
  },
  {
   "property": "C13",
   "status": "partial",
   "theorems": [
    "Orp.Cuckoo.C13_new_filter_is_empty_partial",
    "Orp.Cuckoo.C13_nonzero_empty_value_add_fails",
    "Orp.Cuckoo.C13_nonzero_empty_value_lookup"
   ],
   "note": "Proved for empty_value = 0. False of the code for every nonzero empty_value (second and third theorem)."
  },
  {
   "property": "C14",
   "status": "proved",
   "theorems": [
    "Orp.Reservoir.C14_add_valid_slot",
    "Orp.Reservoir.C14_random_one_out_of_bounds"
   ],
   "note": "draws in [0,1[; the second theorem shows that a generator returning 1 breaks it (out of bounds write)"
  },
  {
   "property": "C15",
   "status": "proved",
   "theorems": [
    "Orp.Reservoir.C15_distinct_positions"
   ],
   "note": ""
  },
  {
   "property": "C16",
   "status": "proved",
   "theorems": [
    "Orp.Reservoir.C16_uniform"
   ],
   "note": "exact probability for product Lebesgue measure on the draws, exact real arithmetic"
  },
  {
   "property": "C17",
   "status": "proved",
   "theorems": [
    "Orp.Reservoir.C17_count",
    "Orp.Reservoir.C17_sample_index_count"
   ],
   "note": ""
  },
  {
   "property": "C18",
   "status": "proved",
   "theorems": [
    "Orp.Reservoir.C18_exponential_keeps_newest",
    "Orp.Reservoir.C18_random_one_out_of_bounds"
   ],
   "note": "draws in [0,1[; the second theorem is the boundary case"
  },
  {
   "property": "C19",
   "status": "proved",
   "theorems": [
    "Orp.Reservoir.C19_exponential_distinct"
   ],
   "note": ""
  },
  {
   "property": "C20",
   "status": "proved",
   "theorems": [
    "Orp.Chained.C20_shows_added"
   ],
   "note": ""
  },
  {
   "property": "C21",
   "status": "partial",
   "theorems": [
    "Orp.Chained.C21_violated",
    "Orp.Chained.C21_stale_element",
    "Orp.Chained.C21_unchanged_partial",
    "Orp.Chained.C21_shows_last",
    "Orp.Chained.C21_shows_live_partial",
    "Orp.Chained.C21_one_live_partial"
   ],
   "note": "False for the code: the newest, not the oldest live element of the chain is shown, even a discarded one (witnesses). Proved: unchanged slots; exact behaviour otherwise; the property for slots with one live element."
  },
  {
   "property": "C22",
   "status": "partial",
   "theorems": [
    "Orp.Chained.C22_kept",
    "Orp.Chained.C22_violated",
    "Orp.Chained.C22_next_partial"
   ],
   "note": "False for the code: timestamp t itself is kept, in every state. obsolete(t+1) does it."
  },
  {
   "property": "C23",
   "status": "proved",
   "theorems": [
    "Orp.Chained.C23_pointer_safety",
    "Orp.Chained.C23_short"
   ],
   "note": "malloc does not fail"
  },
  {
   "property": "C24",
   "status": "proved",
   "theorems": [
    "Orp.Chained.C24_plain_reservoir",
    "Orp.Chained.C24_timestamp_zero",
    "Orp.Chained.C24_overwrite_after_obsolete"
   ],
   "note": "the last two show that the hypotheses (nonzero timestamps, no obsolete) are needed"
  },
  {
   "property": "C25",
   "status": "partial",
   "theorems": [
    "Orp.Ltc.C25_error_bound_exact_partial",
    "Orp.Ltc.C25_error_unbounded",
    "Orp.Ltc.C25_not_error_bounded",
    "Orp.Ltc.C25_gaps_break_the_bound"
   ],
   "note": "The property is false for the code: truncation loses slopes, the error is unbounded (proved for every size of error that fits the value range). Proved for the same algorithm in exact arithmetic."
  },
  {
   "property": "C26",
   "status": "partial",
   "theorems": [
    "Orp.Ltc.C26_no_needless_transmission",
    "Orp.Ltc.C26_add_returns_false",
    "Orp.Rounding.C111_consecutive",
    "Orp.Rounding.C111_no_needless_partial",
    "Orp.Rounding.C111_needless"
   ],
   "note": "Proved with exact slopes (time unit 1; lines take integer values in the declared range), hence for the code when the timestamps are consecutive (C111_consecutive), and for lines of integer slope at any timestamps (C111_no_needless_partial). With gaps between the timestamps and double slopes it is false: C111_needless."
  },
  {
   "property": "C27",
   "status": "proved",
   "theorems": [
    "Orp.Ltc.C27_open_segment_fits",
    "Orp.Ltc.C27_fails_with_truncation"
   ],
   "note": "exact arithmetic, as stated; with the truncation of the code it fails (second theorem)"
  },
  {
   "property": "C28",
   "status": "proved",
   "theorems": [
    "Orp.Ltc.C28_protocol",
    "Orp.Ltc.C28_segment_start"
   ],
   "note": ""
  },
  {
   "property": "C29",
   "status": "proved",
   "theorems": [
    "Orp.Utils.C29_cumulative"
   ],
   "note": "exact arithmetic"
  },
  {
   "property": "C30",
   "status": "partial",
   "theorems": [
    "Orp.Utils.C30_first_index_partial",
    "Orp.Utils.C30_no_zero_probability_partial",
    "Orp.Utils.C30_probability",
    "Orp.Utils.C30_zero_draw_picks_impossible_index"
   ],
   "note": "the last clause (never a zero probability index) is false for u = 0: witness proved; it holds for u > 0"
  },
  {
   "property": "C31",
   "status": "partial",
   "theorems": [
    "Orp.Utils.C31_permutes_partial",
    "Orp.Utils.C31_no_element_keeps_its_place",
    "Orp.Utils.C31_identity_unreachable",
    "Orp.Utils.C64_exactly_the_cyclic_permutations"
   ],
   "note": "permutation and bounds hold; reaching every permutation is false (proved), see C64 for the exact set"
  },
  {
   "property": "C32",
   "status": "proved",
   "theorems": [
    "Orp.Utils.C32_index_max"
   ],
   "note": ""
  },
  {
   "property": "C33",
   "status": "proved",
   "theorems": [
    "Orp.Utils.C33_div_int",
    "Orp.Utils.C33_round",
    "Orp.Utils.C33_abs_min_max"
   ],
   "note": ""
  },
  {
   "property": "C34",
   "status": "proved",
   "theorems": [
    "Orp.Metrics.C34_error_rate",
    "Orp.Metrics.C34_ratio"
   ],
   "note": ""
  },
  {
   "property": "C35",
   "status": "proved",
   "theorems": [
    "Orp.Metrics.C35_kappa",
    "Orp.Metrics.C35_order_independent",
    "Orp.Metrics.C35_penalty_single_label",
    "Orp.Metrics.C35_nothing_recorded"
   ],
   "note": ""
  },
  {
   "property": "C36",
   "status": "proved",
   "theorems": [
    "Orp.Metrics.C36_scores_are_a_distribution",
    "Orp.Metrics.C36_assignment",
    "Orp.Metrics.C36_assignment_breaks"
   ],
   "note": "Assignment copies the score of its source (C36_assignment); it is excluded from the main theorem because overwriting the newest object leaves scores that sum to less than 1 (C36_assignment_breaks)."
  },
  {
   "property": "C37",
   "status": "proved",
   "theorems": [
    "Orp.Bayes.C37_mean_and_variance",
    "Orp.Bayes.C37_history",
    "Orp.Bayes.C37_density"
   ],
   "note": "exact arithmetic, as stated"
  },
  {
   "property": "C38",
   "status": "proved",
   "theorems": [
    "Orp.Bayes.C38_order_independent",
    "Orp.Bayes.C38_per_label"
   ],
   "note": "positive weights"
  },
  {
   "property": "C39",
   "status": "partial",
   "theorems": [
    "Orp.Bayes.C39_predicts_best",
    "Orp.Bayes.C39_never_unseen",
    "Orp.Bayes.C39_score",
    "Orp.Bayes.C39_no_training",
    "Orp.Bayes.C39_unseen_returned",
    "Orp.Bayes.C39_smoothing_ignored"
   ],
   "note": "Everything but the last clause is proved; the last clause is false: smoothing is stored and never used."
  },
  {
   "property": "C40",
   "status": "proved",
   "theorems": [
    "Orp.Mlp.C40_addresses",
    "Orp.Mlp.C40_dense",
    "Orp.Mlp.C40_set_neuron",
    "Orp.Mlp.C40_set_layer",
    "Orp.Mlp.C40_set_all",
    "Orp.Mlp.C40_new_fits"
   ],
   "note": ""
  },
  {
   "property": "C41",
   "status": "proved",
   "theorems": [
    "Orp.Mlp.C41_feed_forward"
   ],
   "note": "for every field and every activation function"
  },
  {
   "property": "C42",
   "status": "proved",
   "theorems": [
    "Orp.Mlp.C42_gradient_step"
   ],
   "note": "over the reals, for every integer read at layer_size[-1] (see C43); overflow of the int arithmetic with this value is not modelled"
  },
  {
   "property": "C43",
   "status": "partial",
   "theorems": [
    "Orp.Mlp.C43_violated",
    "Orp.Mlp.C43_only_one_partial"
   ],
   "note": "False of the code: layer_size[-1] is read by every call. Partial: it is the only out of bounds access, and its value does not influence the weights or the result."
  },
  {
   "property": "C44",
   "status": "partial",
   "theorems": [
    "Orp.Mcnn.C44_predict_partial",
    "Orp.Mcnn.C44_untrained",
    "Orp.Mcnn.C44_violated"
   ],
   "note": "The last clause is false: a query whose squared distance to every cluster is at least 1000000 gets empty_class after training. Everything else is proved, with this case characterised."
  },
  {
   "property": "C45",
   "status": "partial",
   "theorems": [
    "Orp.Mcnn.C45_count_partial",
    "Orp.Mcnn.C45_violated_split",
    "Orp.Mcnn.C45_violated_clean"
   ],
   "note": "False as stated: a split that evicts a cluster increases the counter, cleaning does not decrease it. The partial theorem bounds the number of clusters in use and says for which cleaning methods the counter is right."
  },
  {
   "property": "C46",
   "status": "partial",
   "theorems": [
    "Orp.Mcnn.C46_false",
    "Orp.Mcnn.C46_true_partial",
    "Orp.Mcnn.C46_absorbed_and_evicted"
   ],
   "note": "The statement on false holds. When train returns true a cluster has absorbed the point, but the split that follows may evict just this cluster (C46_absorbed_and_evicted)."
  },
  {
   "property": "C47",
   "status": "proved",
   "theorems": [
    "Orp.Mcnn.C47_sound",
    "Orp.Mcnn.C47_mean"
   ],
   "note": ""
  },
  {
   "property": "C48",
   "status": "partial",
   "theorems": [
    "Orp.Hoeffding.C48_prediction_ignores_features",
    "Orp.Hoeffding.C48_prediction_is_majority"
   ],
   "note": "False of the code, for every history: all leaves share one block of counters. The second theorem says what is predicted instead."
  },
  {
   "property": "C49",
   "status": "partial",
   "theorems": [
    "Orp.Hoeffding.C49_wrong_feature",
    "Orp.Hoeffding.C49_split_partial"
   ],
   "note": "False of the code (witness with the real logarithms); the second theorem says exactly for which limits the feature is right."
  },
  {
   "property": "C50",
   "status": "partial",
   "theorems": [
    "Orp.Hoeffding.C50_sort_reaches_leaf",
    "Orp.Hoeffding.C50_no_ub_partial",
    "Orp.Hoeffding.C50_split_without_memory",
    "Orp.Hoeffding.C50_constructor_without_memory",
    "Orp.Hoeffding.C50_one_limit_ub"
   ],
   "note": "Sorting is proved for every history. Exhausted memory is undefined behaviour in the code, and so is training with fewer than two limits; with memory for three nodes and one block all calls are defined."
  },
  {
   "property": "C51",
   "status": "proved",
   "theorems": [
    "Orp.Hoeffding.C51_gain_bounds",
    "Orp.Hoeffding.C51_gain_any_counters",
    "Orp.Hoeffding.C51_probabilities",
    "Orp.Hoeffding.C51_untrained"
   ],
   "note": "Over the real numbers with the binary logarithm."
  },
  {
   "property": "C52",
   "status": "partial",
   "theorems": [
    "Orp.Mondrian.C52_structure",
    "Orp.Mondrian.C52_strict_times_partial",
    "Orp.Mondrian.C52_times_not_strict",
    "Orp.Mondrian.C52_trees_unique"
   ],
   "note": "Everything but strictness holds for every random number in [0,1[; times strictly increase if no random number is 0, and need not otherwise."
  },
  {
   "property": "C53",
   "status": "proved",
   "theorems": [
    "Orp.Mondrian.C53_points_in_leaves"
   ],
   "note": ""
  },
  {
   "property": "C54",
   "status": "proved",
   "theorems": [
    "Orp.Mondrian.C54_splits_separate"
   ],
   "note": ""
  },
  {
   "property": "C55",
   "status": "partial",
   "theorems": [
    "Orp.Mondrian.C55_pool_partial",
    "Orp.Mondrian.C55_leak",
    "Orp.Mondrian.C55_fewer_nodes_than_trees"
   ],
   "note": "False of the code: one node can be lost, and with fewer nodes than trees nodes[-1] is written. Partial: at most one node is lost, and only when the pool is exhausted; no other access is outside the pool."
  },
  {
   "property": "C56",
   "status": "proved",
   "theorems": [
    "Orp.Mondrian.C56_predict"
   ],
   "note": "for exp(0)=1, non-negative discount factor and lifetime"
  },
  {
   "property": "C57",
   "status": "partial",
   "theorems": [
    "Orp.Mondrian.C57_uninitialised",
    "Orp.Mondrian.C57_partial",
    "Orp.Mondrian.C57_split_partial"
   ],
   "note": "False of the code for the random number 0; proved for random numbers in ]0,1[."
  },
  {
   "property": "C58",
   "status": "partial",
   "theorems": [
    "Orp.Mondrian.C58_returns_indeterminate",
    "Orp.Mondrian.C58_all_trees_partial"
   ],
   "note": "False of the code: the returned variable is never set."
  },
  {
   "property": "C59",
   "status": "proved",
   "theorems": [
    "Orp.Unbound.C59_bounded_follows",
    "Orp.Unbound.C59_unbounded_follows",
    "Orp.Unbound.C59_needs_nodes"
   ],
   "note": "Stated in both directions; the last theorem shows that enough memory is needed."
  },
  {
   "property": "C60",
   "status": "proved",
   "theorems": [
    "Orp.Unbound.C60_counters",
    "Orp.Unbound.C60_leaves"
   ],
   "note": ""
  },
  {
   "property": "C61",
   "status": "partial",
   "theorems": [
    "Orp.Coarse.C61_free_nodes_partial",
    "Orp.Coarse.C61_no_undefined_behaviour_partial",
    "Orp.Coarse.C61_random_zero",
    "Orp.Coarse.C82_no_trim_defined_partial",
    "Orp.Coarse.C82_no_trim_partial"
   ],
   "note": "Every history of train, predict, tree_trim and tree_fade_counts in every mode, with the default split trigger and helper; false of the code for other triggers (C82). Undefined behaviour is excluded for random numbers other than 0 and depth limits up to 101; both conditions are needed. tree_add and tree_delete are private and never called. Without trimming it holds for all triggers and helpers."
  },
  {
   "property": "C62",
   "status": "partial",
   "theorems": [
    "Orp.Coarse.C62_default_learns_nothing",
    "Orp.Coarse.C62_default_violation",
    "Orp.Coarse.C62_default_limit_never_splits",
    "Orp.Coarse.C62_original_partial"
   ],
   "note": "False of the code: with the default parameters nothing is learnt after the first point and train returns true. Proved for EXTEND_ORIGINAL."
  },
  {
   "property": "C63",
   "status": "proved",
   "theorems": [
    "Orp.Reservoir.C63_exponential_bias"
   ],
   "note": ""
  },
  {
   "property": "C64",
   "status": "proved",
   "theorems": [
    "Orp.Utils.C64_exactly_the_cyclic_permutations",
    "Orp.Utils.C64_equal_probability"
   ],
   "note": ""
  },
  {
   "property": "C65",
   "status": "proved",
   "theorems": [
    "Orp.Utils.C65_rand_exponential"
   ],
   "note": "real logarithm, exact arithmetic"
  },
  {
   "property": "C66",
   "status": "partial",
   "theorems": [
    "Orp.Chained.C66_next_always_enters",
    "Orp.Chained.C66_slot0_half",
    "Orp.Chained.C66_slot0_biased",
    "Orp.Chained.C66_joint_partial",
    "Orp.Chained.C66_age_partial",
    "Orp.Chained.C66_item_partial",
    "Orp.Chained.C66_small_partial",
    "Orp.Chained.C66_first_items"
   ],
   "note": "False for the code: item sample_size+1 always enters; end slots are replaced with half the probability of the others. Proved instead: the exact joint law of the items that the slots show, for fewer than 5000 items (C123), and that samples of one or two are uniform over all items but the first sample_size."
  },
  {
   "property": "C67",
   "status": "partial",
   "theorems": [
    "Orp.Mcnn.C67_split",
    "Orp.Mcnn.C67_two_clusters_partial",
    "Orp.Mcnn.C67_half_lost",
    "Orp.Mcnn.C67_violated",
    "Orp.Mcnn.C47_mean"
   ],
   "note": "sqrt is a parameter. False if no place is free and the cluster that is split has the lowest participation: it takes its own place and one half is lost (C67_half_lost, C67_violated). C67_two_clusters_partial is the property in all other cases; C67_split describes all cases."
  },
  {
   "property": "C68",
   "status": "partial",
   "theorems": [
    "Orp.Mlp.C68_violated",
    "Orp.Mlp.C68_arrays_partial"
   ],
   "note": "False of the code: up to 8 bytes more than max_size for the two arrays alone."
  },
  {
   "property": "C69",
   "status": "partial",
   "theorems": [
    "Orp.Mondrian.C69_single_point",
    "Orp.Mondrian.C69_other_label",
    "Orp.Mondrian.C69_copies_partial"
   ],
   "note": "False of the code for fewer than exp(discount*lifetime) copies, in particular for one."
  },
  {
   "property": "C70",
   "status": "partial",
   "theorems": [
    "Orp.Unbound.C70_destructor",
    "Orp.Unbound.C70_copies_unsafe"
   ],
   "note": "The destructor is proved right; false of the code for copied objects, which share their nodes."
  },
  {
   "property": "C71",
   "status": "proved",
   "theorems": [
    "Orp.Mondrian.C71_predict_is_pure"
   ],
   "note": ""
  },
  {
   "property": "C72",
   "status": "partial",
   "theorems": [
    "Orp.Unbound.C72_trees_right",
    "Orp.Unbound.C72_no_ub_partial",
    "Orp.Unbound.C72_uninitialised",
    "Orp.Unbound.C72_returns_indeterminate"
   ],
   "note": "The trees are proved right for every history; undefined behaviour is excluded for random numbers in ]0,1[ and proved for 0; train returns an uninitialised variable."
  },
  {
   "property": "C73",
   "status": "partial",
   "theorems": [
    "Orp.Hoeffding.C73_at_most_one_split"
   ],
   "note": "False of the code, for every history: at most one split."
  },
  {
   "property": "C74",
   "status": "partial",
   "theorems": [
    "Orp.Coarse.C74_size_never_updated",
    "Orp.Coarse.C74_limit_exceeded",
    "Orp.Coarse.C74_depends_on_old_memory",
    "Orp.Coarse.C74_limits"
   ],
   "note": "False of the code: the size the limit is compared with is never initialised nor updated. The last theorem says which limits the constructor sets."
  },
  {
   "property": "C75",
   "status": "partial",
   "theorems": [
    "Orp.Coarse.C75_depth_limit_partial",
    "Orp.Coarse.C75_deep_tree",
    "Orp.Coarse.C75_split_helper",
    "Orp.Coarse.C75_no_trim_partial"
   ],
   "note": "With the default split helper the limit is kept by every history that does not end in undefined behaviour, which is excluded for limits up to 101; for every greater limit a history with undefined behaviour is given. Other split helpers ignore the limit."
  },
  {
   "property": "C76",
   "status": "partial",
   "theorems": [
    "Orp.Coarse.C76_memory",
    "Orp.Coarse.C76_no_check"
   ],
   "note": "The layout is proved; a buffer that is too small is undefined behaviour instead of being detected."
  },
  {
   "property": "C77",
   "status": "partial",
   "theorems": [
    "Orp.Coarse.C77_counted_once_partial",
    "Orp.Coarse.C77_ghost_partial",
    "Orp.Coarse.C77_counted_twice",
    "Orp.Coarse.C77_dropped",
    "Orp.Coarse.C77_no_trim_partial"
   ],
   "note": "Proved for EXTEND_ORIGINAL, EXTEND_BARYCENTER and EXTEND_GHOST; false for EXTEND_COUNTER_NO_UPDATE and EXTEND_PARTIAL_UPDATE."
  },
  {
   "property": "C78",
   "status": "partial",
   "theorems": [
    "Orp.Coarse.C78_trim",
    "Orp.Coarse.C78_one_leaf",
    "Orp.Coarse.C78_reset_returns_false"
   ],
   "note": "Proved after every history with the default split trigger and helper; false of the code for other triggers (C82)."
  },
  {
   "property": "C79",
   "status": "partial",
   "theorems": [
    "Orp.Coarse.C79_predict_partial",
    "Orp.Coarse.C79_too_many_trees",
    "Orp.Coarse.C79_empty_leaf",
    "Orp.Coarse.C79_no_trim_partial",
    "Orp.Coarse.C79_no_influence_partial"
   ],
   "note": "Proved after every history with the default split trigger and helper; undefined behaviour for no or too many trees. With SPLIT_HELPER_AVG a leaf can be empty, and predict divides by zero."
  },
  {
   "property": "C80",
   "status": "partial",
   "theorems": [
    "Orp.Coarse.C80_structure",
    "Orp.Coarse.C82_no_trim_partial"
   ],
   "note": "Proved after every history with the default split trigger and helper; false of the code for other triggers (C82). Without trimming it holds for all triggers and helpers."
  },
  {
   "property": "C81",
   "status": "proved",
   "theorems": [
    "Orp.Coarse.C81_counts",
    "Orp.Coarse.C81_all_points"
   ],
   "note": "With the default split trigger and helper."
  },
  {
   "property": "C82",
   "status": "partial",
   "theorems": [
    "Orp.Coarse.C82_dangling",
    "Orp.Coarse.C82_cycle",
    "Orp.Coarse.C82_default_partial",
    "Orp.Coarse.C82_other_partial",
    "Orp.Coarse.C82_helper_partial",
    "Orp.Coarse.C82_no_trim_defined_partial",
    "Orp.Coarse.C82_no_trim_partial"
   ],
   "note": "False of the code for SPLIT_TRIGGER_POSITIVE: children that are available nodes, then a cycle. Proved for SPLIT_TRIGGER_NONE with every helper, and for the ways to extend other than EXTEND_BARYCENTER with every trigger and helper. Proved without trimming for all triggers and helpers."
  },
  {
   "property": "C83",
   "status": "partial",
   "theorems": [
    "Orp.Coarse.C83_nothing_moved",
    "Orp.Coarse.C83_never_moved"
   ],
   "note": "False of the code: a witness, and the proof that with SPLIT_TRIGGER_NONE no helper ever moves a counter."
  },
  {
   "property": "C84",
   "status": "partial",
   "theorems": [
    "Orp.Coarse.C84_uninitialised",
    "Orp.Coarse.C84_default_partial",
    "Orp.Coarse.C84_other_partial",
    "Orp.Coarse.C84_no_trim_partial"
   ],
   "note": "False of the code with SPLIT_HELPER_AVG: sum_features is never initialised. Proved for the default trigger and helper, and for the ways to extend other than EXTEND_BARYCENTER (see C74 for the size of the trees). Proved without trimming for all triggers and helpers."
  },
  {
   "property": "C85",
   "status": "partial",
   "theorems": [
    "Orp.Coarse.C85_margin_partial",
    "Orp.Coarse.C85_first_label"
   ],
   "note": "False of the code for the first label when its score is the greatest: 0 is returned."
  },
  {
   "property": "C86",
   "status": "proved",
   "theorems": [
    "Orp.Coarse.C86_barycenter",
    "Orp.Coarse.C86_inside"
   ],
   "note": "With the default split trigger and helper; for nodes with at most 100 levels below them and at least one counted point."
  },
  {
   "property": "C87",
   "status": "partial",
   "theorems": [
    "Orp.Coarse.C87_sides_partial",
    "Orp.Coarse.C87_wrong_side"
   ],
   "note": "The sum is proved, and the division of boxes the split goes through; false of the code for leaves on one side of the split, which are counted on the other side."
  },
  {
   "property": "C88",
   "status": "partial",
   "theorems": [
    "Orp.Coarse.C88_counters_partial",
    "Orp.Coarse.C88_duplicated"
   ],
   "note": "No point is lost and nothing else changes; false of the code in that both parts of a counter can be rounded up."
  },
  {
   "property": "C89",
   "status": "partial",
   "theorems": [
    "Orp.Coarse.C89_boxes_partial",
    "Orp.Coarse.C89_proper_partial",
    "Orp.Coarse.C89_no_update",
    "Orp.Coarse.C89_barycenter"
   ],
   "note": "False of the code for EXTEND_COUNTER_NO_UPDATE and for EXTEND_BARYCENTER with a parameter other than 1, proved for the others; lower and upper bounds are in order in all cases with a non-negative parameter."
  },
  {
   "property": "C90",
   "status": "proved",
   "theorems": [
    "Orp.Coarse.C90_no_trim",
    "Orp.Coarse.C90_other",
    "Orp.Coarse.C84_no_trim_partial",
    "Orp.Coarse.C82_no_trim_partial",
    "Orp.Coarse.C75_no_trim_partial",
    "Orp.Coarse.C77_no_trim_partial",
    "Orp.Coarse.C79_no_trim_partial",
    "Orp.Coarse.C79_no_influence_partial"
   ],
   "note": "By a simulation: without trimming a node with forced extensions never gets room again, so that no split is triggered."
  },
  {
   "property": "C91",
   "status": "proved",
   "theorems": [
    "Orp.Bloom.C91_false_positive_rate",
    "Orp.Bloom.C91_exact",
    "Orp.Bloom.C91_one_hash"
   ],
   "note": "The probability is the exact part of the families of hash functions from the elements to the bits."
  },
  {
   "property": "C92",
   "status": "proved",
   "theorems": [
    "Orp.Cuckoo.C92_reported",
    "Orp.Cuckoo.C92_rate"
   ],
   "note": ""
  },
  {
   "property": "C93",
   "status": "proved",
   "theorems": [
    "Orp.Reservoir.C93_every_sample_equally_likely"
   ],
   "note": "With ideal independent uniform random numbers."
  },
  {
   "property": "C94",
   "status": "proved",
   "theorems": [
    "Orp.Mondrian.C94_split_law",
    "Orp.Mondrian.C94_no_split"
   ],
   "note": "With ideal independent uniform random numbers and the real logarithm; the events with bounds on time and value determine the distribution."
  },
  {
   "property": "C95",
   "status": "proved",
   "theorems": [
    "Orp.Mondrian.C95_kernel",
    "Orp.Mondrian.C95_group",
    "Orp.Mondrian.C95_laplace",
    "Orp.Mondrian.C95_history",
    "Orp.Mondrian.C95_unbound",
    "Orp.Coarse.C95_coarse"
   ],
   "note": "With ideal independent uniform random numbers and the real logarithm."
  },
  {
   "property": "C96",
   "status": "partial",
   "theorems": [
    "Orp.Coarse.C96_optimize_partial",
    "Orp.Coarse.C96_other_object",
    "Orp.Coarse.C96_trim",
    "Orp.Coarse.C96_extend",
    "Orp.Coarse.C96_too_few_nodes"
   ],
   "note": "Proved for EXTEND_ORIGINAL without trimming when the first node of the memory is used first and there is a node for each root; false of the code for trimming, the other ways to extend, another object of the same type, and too few nodes."
  },
  {
   "property": "C97",
   "status": "partial",
   "theorems": [
    "Orp.Coarse.C97_dump_partial",
    "Orp.Coarse.C97_once",
    "Orp.Coarse.C97_output_partial",
    "Orp.Coarse.C97_no_influence_partial",
    "Orp.Coarse.C97_defined_partial",
    "Orp.Coarse.C97_unprintable",
    "Orp.Coarse.C97_deep",
    "Orp.Coarse.C97_too_few_nodes",
    "Orp.Coarse.C97_no_tree",
    "Orp.Coarse.C97_ghost",
    "Orp.Coarse.C97_forest_line"
   ],
   "note": "Proved without EXTEND_GHOST: the output is complete and faithful, results do not change, and histories stay defined when there is a node for each of at least one tree and no tree can be higher than 101. False of the code: undefined behaviour for empty or higher trees and for no tree, EXTEND_GHOST changes labels, and the line for the forest shows the last tree."
  },
  {
   "property": "C98",
   "status": "proved",
   "theorems": [
    "Orp.Mondrian.C98_units",
    "Orp.Mondrian.C98_origin",
    "Orp.Unbound.C98_units"
   ],
   "note": "In exact arithmetic."
  },
  {
   "property": "C99",
   "status": "partial",
   "theorems": [
    "Orp.Mondrian.C99_votes",
    "Orp.Mondrian.C99_rename_partial",
    "Orp.Mondrian.C99_ties",
    "Orp.Unbound.C99_votes",
    "Orp.Unbound.C99_rename_partial"
   ],
   "note": "The votes are renamed; the predicted label is the renamed one unless several labels share the greatest number of votes, in which case the code returns the smallest of them."
  },
  {
   "property": "C100",
   "status": "proved",
   "theorems": [
    "Orp.Mcnn.C100_origin",
    "Orp.Mcnn.C100_units"
   ],
   "note": "In exact arithmetic. C100_units: unlike the origin, the units do matter, because the searches start from the fixed squared distance 1000000."
  },
  {
   "property": "C101",
   "status": "proved",
   "theorems": [
    "Orp.Mcnn.C101_rename"
   ],
   "note": "In exact arithmetic."
  },
  {
   "property": "C102",
   "status": "partial",
   "theorems": [
    "Orp.Bayes.C102_origin",
    "Orp.Bayes.C102_units_partial",
    "Orp.Bayes.C102_units_matter"
   ],
   "note": "The origin never matters. Units do not matter if the features of every trained label vary; false of the code for a label with a constant feature, whose density is 1 in all units."
  },
  {
   "property": "C103",
   "status": "partial",
   "theorems": [
    "Orp.Bayes.C103_scores",
    "Orp.Bayes.C103_rename_partial",
    "Orp.Bayes.C103_ties"
   ],
   "note": "The scores are renamed; the predicted label is the renamed one unless several labels share the greatest score, in which case the code returns the smallest of them."
  },
  {
   "property": "C104",
   "status": "partial",
   "theorems": [
    "Orp.Ltc.C104_protocol_partial",
    "Orp.Ltc.C104_error_unbounded"
   ],
   "note": "The protocol holds for every time unit but 0. The error bound is false of the code for every time unit greater than 1, also in exact arithmetic: the error is unbounded."
  },
  {
   "property": "C105",
   "status": "proved",
   "theorems": [
    "Orp.Mondrian.C105_votes",
    "Orp.Mondrian.C105_predicted",
    "Orp.Unbound.C105_votes",
    "Orp.Unbound.C105_predicted",
    "Orp.Coarse.C105_equal_votes",
    "Orp.Coarse.C105_predicted"
   ],
   "note": "Of exp only exp y <= 1 for y <= 0 is needed. For the coarse forest, in which the score of such a label need not be base_measure: all labels without training points get equal votes."
  },
  {
   "property": "C106",
   "status": "proved",
   "theorems": [
    "Orp.Rounding.C106_reservoir",
    "Orp.Rounding.C106_reservoir_slot",
    "Orp.Rounding.C106_exponential",
    "Orp.Rounding.C106_shuffle",
    "Orp.Rounding.C106_shuffle_permutes",
    "Orp.Rounding.C106_chained",
    "Orp.Rounding.C106_upward"
   ],
   "note": "Any rounding to nearest in any binary format with gradual underflow and at least 33 bits. C106_upward shows that the hypothesis on the rounding mode is needed. Overflow to infinity cannot occur in these computations."
  },
  {
   "property": "C107",
   "status": "partial",
   "theorems": [
    "Orp.Rounding.C107_cumulative",
    "Orp.Rounding.C107_no_zero_weight",
    "Orp.Rounding.C107_in_range_partial",
    "Orp.Rounding.C107_out_of_range"
   ],
   "note": "The accuracy and the zero weights are proved. That an index of the array is selected is false for the largest random numbers: C107_out_of_range (doubles, weights 1, 4, 1, 1 and the random number 1 - 2^-53 select index 4). C107_in_range_partial bounds the random numbers for which this can happen."
  },
  {
   "property": "C108",
   "status": "partial",
   "theorems": [
    "Orp.Rounding.C108_structure",
    "Orp.Rounding.C108_split_between",
    "Orp.Rounding.C108_points_in_leaves_partial",
    "Orp.Rounding.C108_no_undefined_behaviour_partial",
    "Orp.Rounding.C108_integers",
    "Orp.Rounding.C108_wrong_leaf",
    "Orp.Rounding.C108_uninitialised"
   ],
   "note": "Well-formed trees and split values between the two ends (inclusive) hold without further hypotheses. The rest is false: a split value can be rounded up to the larger end (C108_wrong_leaf), and with a random number just below 1 the split values are used uninitialised (C108_uninitialised). It holds when split values stay below the larger end, and for random numbers that are positive and not too near to 1; both hypotheses are shown for integer features up to 2^20 and 32-bit random numbers (C108_integers). feature_type is double."
  },
  {
   "property": "C109",
   "status": "partial",
   "theorems": [
    "Orp.Rounding.C109_mean_variance_partial",
    "Orp.Rounding.C109_negative",
    "Orp.Rounding.C109_degenerate"
   ],
   "note": "Proved for weight 1: the mean is in the range of the values, the variance not negative, and zero for equal values. The full statement is false: with weights of very different size the variance becomes negative and the mean leaves the range (C109_negative); with weight 1 different values can have the computed variance zero, and the density is then 0 at a training point (C109_degenerate)."
  },
  {
   "property": "C110",
   "status": "partial",
   "theorems": [
    "Orp.Rounding.C110_sound",
    "Orp.Rounding.C110_accuracy",
    "Orp.Rounding.C110_split_partial",
    "Orp.Rounding.C110_label_lost",
    "Orp.Rounding.mcRunR_id"
   ],
   "note": "Memory safety, labels and accuracy are proved. That a split cluster can be found again is false: the computed variance can be negative, its square root is NaN and both halves have NaN centroids (C110_label_lost, doubles: after three points at 0.1 and four other points no point at all is classified with the label of the three). C110_split_partial proves it when some feature has a variance above 5(n+5) ulp M^2. mcRunR_id: without rounding the model is the exact one. feature_type is double; overflow of the exponent is not modelled."
  },
  {
   "property": "C111",
   "status": "partial",
   "theorems": [
    "Orp.Rounding.C111_consecutive",
    "Orp.Rounding.C111_protocol",
    "Orp.Rounding.C111_no_needless_partial",
    "Orp.Rounding.C111_needless",
    "Orp.Rounding.C111_error",
    "Orp.Rounding.ltcRunR_id"
   ],
   "note": "Proved for consecutive timestamps (the whole behaviour is that of the exact model, so C25-C28 carry over: C111_consecutive, C111_error), and for any increasing timestamps the protocol and no needless transmission for lines of integer slope. With gaps between the timestamps the statement is false: C111_needless gives four samples within epsilon of a line of integer values which the exact algorithm compresses and the code with doubles does not. Time unit 1; equal timestamps excluded."
  },
  {
   "property": "C112",
   "status": "partial",
   "theorems": [
    "Orp.Coarse.C112_no_influence_partial",
    "Orp.Coarse.C112_defined_partial",
    "Orp.Coarse.C112_kept",
    "Orp.Coarse.C112_mean",
    "Orp.Coarse.C112_values_partial",
    "Orp.Coarse.C112_direction_partial",
    "Orp.Coarse.C112_equal",
    "Orp.Coarse.C112_equal_reached",
    "Orp.Coarse.C112_no_tree",
    "Orp.Coarse.C112_ghost",
    "Orp.Coarse.C112_deep"
   ],
   "note": "Proved for every configuration without EXTEND_GHOST and at least one tree: no influence on later calls, definedness when no tree can get higher than 101, the closed form of the kept variables after any history, and the values of one call. False in the code: with EXTEND_GHOST a call recounts the split nodes and changes labels (C112_ghost); a tree of height 102 is undefined behaviour (C112_deep); the scores of the shorter trees are summed and not divided by the number of trees, so the direction goes up for equal forests (C112_equal, C112_equal_reached)."
  },
  {
   "property": "C113",
   "status": "proved",
   "theorems": [
    "Orp.Coarse.C113_coarse_follows",
    "Orp.Coarse.C113_unbounded_follows",
    "Orp.Coarse.C113_replaces",
    "Orp.Coarse.C113_short_memory",
    "Orp.Coarse.C113_default_differs"
   ],
   "note": "Both directions against MondrianForestUnbound and the replacement of MondrianForest by the coarse forest. C113_short_memory and C113_default_differs show that the conditions are needed: with little memory MondrianForest uses more random numbers and loses a node, and with the default EXTEND_NONE the labels differ."
  },
  {
   "property": "C114",
   "status": "proved",
   "theorems": [
    "Orp.Mlp.C114_descent",
    "Orp.Mlp.C114_learned",
    "Orp.Mlp.C114_large_rate"
   ],
   "note": "Over the real numbers. C114_large_rate shows with the network of C41 that the bound on the learning rate is needed: with the rate 1/10 the error grows from 64 to more than 647."
  },
  {
   "property": "C115",
   "status": "partial",
   "theorems": [
    "Orp.Hoeffding.C115_split_rule",
    "Orp.Hoeffding.C115_waits",
    "Orp.Hoeffding.C115_one_label",
    "Orp.Hoeffding.C115_bound_partial",
    "Orp.Hoeffding.Five.C115_bound_violated"
   ],
   "note": "The split rule, the waiting time and the case of one label are proved in full. That a split exceeds the Hoeffding bound is proved for up to four labels; with five labels it is false of the code, which uses the range 2 for every number of labels (C115_bound_violated)."
  },
  {
   "property": "C116",
   "status": "proved",
   "theorems": [
    "Orp.Hoeffding.C116_units"
   ],
   "note": "In exact arithmetic. That the code may split on another feature than that of the limit (C49) does not show: scores never depend on the query point, because both leaves share their counters (C48)."
  },
  {
   "property": "C117",
   "status": "partial",
   "theorems": [
    "Orp.Hoeffding.C117_scores",
    "Orp.Hoeffding.C117_rename_partial",
    "Orp.Hoeffding.C117_ties"
   ],
   "note": "Scores, gains and splits are proved in full; the predicted label is the renamed one unless several labels share the greatest score, in which case the code returns the smallest of them."
  },
  {
   "property": "C118",
   "status": "proved",
   "theorems": [
    "Orp.Coarse.C118_pass_down",
    "Orp.Coarse.C118_counted",
    "Orp.Coarse.C118_count_down"
   ],
   "note": "Histories of the default split trigger (Setting/run); in exact arithmetic."
  },
  {
   "property": "C119",
   "status": "partial",
   "theorems": [
    "Orp.Coarse.C119_confined_partial",
    "Orp.Coarse.C119_wrong_side"
   ],
   "note": "Proved when all boxes have a width and reach into the kept side. Violated otherwise: a leaf without width (for instance with a single point) is removed although it is on the kept side, and a leaf of the other side may be kept."
  },
  {
   "property": "C120",
   "status": "partial",
   "theorems": [
    "Orp.Coarse.C120_nonneg_partial",
    "Orp.Coarse.C120_shared_partial",
    "Orp.Coarse.C120_negative",
    "Orp.Coarse.C120_wrong_share"
   ],
   "note": "Never negative for all split configurations except FE_DISTRIBUTION_DECREMENT with a helper, where -1 is reached. FE_DISTRIBUTION_PROPORTIONAL gives the node the share of the left side even if it keeps the right side."
  },
  {
   "property": "C121",
   "status": "proved",
   "theorems": [
    "Orp.Mcnn.C121_cleaned",
    "Orp.Mcnn.C121_evicted"
   ],
   "note": "In exact arithmetic. inUse and IsLowest are the sets used in C46; the theorems give them in terms of the times of the points. The creation time of a cluster made by a split is the mean of the times of the old one, rounded down."
  },
  {
   "property": "C122",
   "status": "partial",
   "theorems": [
    "Orp.Reservoir.C122_restart",
    "Orp.Reservoir.C122_latest",
    "Orp.Reservoir.C122_always_sampled",
    "Orp.Reservoir.C122_not_uniform",
    "Orp.Reservoir.C122_uniform_partial",
    "Orp.Reservoir.C122_exponential_partial"
   ],
   "note": "False of the code for the plain reservoir: after 2^32 items it starts again, forgets the stream and is filled with the latest items. Proved up to 2^32 - 1 items, and for all lengths for the exponential reservoir."
  },
  {
   "property": "C123",
   "status": "partial",
   "theorems": [
    "Orp.Chained.C123_abort",
    "Orp.Chained.C123_almost_surely",
    "Orp.Chained.C123_short_partial"
   ],
   "note": "False of the code: without obsolete the chains grow without limit, and 5002 * sample_size consecutive items that are not sampled fail the assertion of push_on_chain. On a stream of m + 5002 n items this happens with probability at least 1 - 5002 n^2 / m. Fewer than 5000 adds never fail (C23 has the exact condition)."
  },
  {
   "property": "C124",
   "status": "proved",
   "theorems": [
    "Orp.Rounding.C124_error_rate",
    "Orp.Rounding.C124_ranking",
    "Orp.Rounding.C124_kappa"
   ],
   "note": "All sums and products of kappa are integers below 2^53, hence exact: only the last division and the score round."
  },
  {
   "property": "C125",
   "status": "proved",
   "theorems": [
    "Orp.Coarse.C125_other_objects"
   ],
   "note": "A lock-step simulation of two objects whose nodes are at different places."
  },
  {
   "property": "C126",
   "status": "proved",
   "theorems": [
    "Orp.Coarse.C126_units",
    "Orp.Coarse.C126_one_factor"
   ],
   "note": "The second theorem shows that one common factor is needed."
  },
  {
   "property": "C127",
   "status": "partial",
   "theorems": [
    "Orp.Coarse.C127_votes",
    "Orp.Coarse.C127_rename_partial",
    "Orp.Coarse.C127_ties"
   ],
   "note": "The votes are renamed in all cases; the label returned is the renamed one wherever one label has more votes than every other one. False of the code for ties: the first label wins."
  },
  {
   "property": "C128",
   "status": "partial",
   "theorems": [
    "Orp.Mondrian.C128_sum_partial",
    "Orp.Mondrian.C128_negative",
    "Orp.Mondrian.C128_less",
    "Orp.Mondrian.C128_more",
    "Orp.Unbound.C128_sum_partial",
    "Orp.Unbound.C128_negative",
    "Orp.Unbound.C128_more"
   ],
   "note": "Proved: the sum is 1 before the training and at the points trained with every label. False of the code elsewhere: negative votes and sums below 1 after a single point, sums above 1 away from the points."
  },
  {
   "property": "C129",
   "status": "proved",
   "theorems": [
    "Orp.Metrics.C129_error",
    "Orp.Metrics.C129_kappa",
    "Orp.Metrics.C129_reservoir",
    "Orp.Mcnn.C129_counters",
    "Orp.Mcnn.C129_reached",
    "Orp.Rounding.C129_times",
    "Orp.Mondrian.C129_forest",
    "Orp.Unbound.C129_forest"
   ],
   "note": "Proved: exact below 2^31 recorded items (metrics), for up to 2^31 - 1 training points (counters of MC-NN and of the Mondrian forest), below 2^63 (unbounded forest); the times of MC-NN are exact doubles while (N - 1) N is at most 2^53. Beyond, the int counters overflow, which is undefined behaviour; the exact call is given for the metrics, and copies of one point reach the bound for MC-NN and the Mondrian forest."
  },
  {
   "property": "C130",
   "status": "proved",
   "theorems": [
    "Orp.Mcnn.C130_one_cluster_per_label",
    "Orp.Mcnn.C130_predict",
    "Orp.Mcnn.C130_training_points",
    "Orp.Mcnn.C130_needs_margin",
    "Orp.Mcnn.C130_cleaning_forgets"
   ],
   "note": "The two last theorems show that the margin 3A < 2B and the cleaning method are needed: with A < B alone a query is given the wrong label, and with cleaning method 1 a label is forgotten."
  },
  {
   "property": "C131",
   "status": "partial",
   "theorems": [
    "Orp.Chained.C131_copy_shows",
    "Orp.Chained.C131_safe",
    "Orp.Chained.C131_only_adds_partial",
    "Orp.Chained.C131_only_adds_original_partial",
    "Orp.Chained.C131_nothing_allocated_partial",
    "Orp.Chained.C131_violated",
    "Orp.Chained.C131_violated_original"
   ],
   "note": "False of the code: the implicit copy shares the allocated cells, so after obsolete the copy shows an element that was only added to the original (C131_violated), and an add to the copy makes the original keep an obsolete element (C131_violated_original). Proved: the copy shows the same, no interleaving leads to undefined behaviour, an object on which obsolete is not called is independent of the other, and copies made before any cell was allocated are independent."
  },
  {
   "property": "C132",
   "status": "partial",
   "theorems": [
    "Orp.Bayes.C132_smoothing",
    "Orp.Bayes.C132_smoothing_has_no_effect",
    "Orp.Mcnn.C132_error_thr",
    "Orp.Mcnn.C132_performance_thr_partial",
    "Orp.Mcnn.C132_performance_thr_truncated",
    "Orp.Mcnn.C132_performance_thr_violated",
    "Orp.Mcnn.C132_performance_thr_ub"
   ],
   "note": "False of the code for get_performance_thr: the double is returned as unsigned int, so a threshold with a fraction comes back truncated and one outside ]-1, 2^32[ is undefined behaviour. Proved for whole thresholds, for get_error_thr and for get_smoothing; the smoothing has no effect on any answer in any history."
  },
  {
   "property": "C133",
   "status": "proved",
   "theorems": [
    "Orp.Mlp.C133_mistakes",
    "Orp.Mlp.C133_passes"
   ],
   "note": "The perceptron convergence theorem for the code, exact arithmetic. The out of bounds read of backpropagate (C43) is modelled as returning an arbitrary integer, which may differ from call to call."
  },
  {
   "property": "C134",
   "status": "proved",
   "theorems": [
    "Orp.Mlp.C134_total_error",
    "Orp.Mlp.C134_repeated_example"
   ],
   "note": "Exact arithmetic; the out of bounds read of backpropagate (C43) returns an arbitrary integer, which may differ from call to call."
  },
  {
   "property": "C135",
   "status": "partial",
   "theorems": [
    "Orp.Ltc.C135_time_origin",
    "Orp.Ltc.C135_mirror",
    "Orp.Ltc.C135_value_origin_partial",
    "Orp.Ltc.C135_value_origin_violated"
   ],
   "note": "False of the code for the origin of the values: the conversion to an integer truncates toward zero, so a signal around zero needs other transmissions than the same signal one higher (C135_value_origin_violated). Proved: the origin of time and the direction of the values do not matter; the origin of the values does not matter in exact arithmetic or when rounding down."
  },
  {
   "property": "C136",
   "status": "proved",
   "theorems": [
    "Orp.Ltc.C136_points_on_signal",
    "Orp.Ltc.C136_points_on_samples",
    "Orp.Ltc.C136_lossless"
   ],
   "note": "Time unit 1. Unlike C25, which is false between the transmitted points, this holds for the code with its truncation."
  },
  {
   "property": "C137",
   "status": "partial",
   "theorems": [
    "Orp.Coarse.C137_splits_at_average_partial",
    "Orp.Coarse.C137_violated"
   ],
   "note": "False of the code because sum_features is never initialised: C137_violated is a history with a split that is not between the average and the point. Proved for objects made in memory that held zeros there. In exact arithmetic."
  },
  {
   "property": "C138",
   "status": "partial",
   "theorems": [
    "Orp.Hoeffding.C138_same_when_copied_partial",
    "Orp.Hoeffding.C138_never_independent",
    "Orp.Hoeffding.C138_original_learns_from_copy",
    "Orp.Hoeffding.C138_split_destroys_copy",
    "Orp.Hoeffding.C138_copy_usable_partial"
   ],
   "note": "Independence is false of the code, for every history: the nodes of a copy keep the address of the original and use its counters (C138_never_independent, C138_original_learns_from_copy), and a split made through the copy makes every later call on it undefined (C138_split_destroys_copy). Proved: both predict the same when the copy is made, and a copy that is not trained, or was made after the split, can always be used."
  },
  {
   "property": "C139",
   "status": "partial",
   "theorems": [
    "Orp.McnnInt.C139_violated",
    "Orp.McnnInt.C139_negative_split",
    "Orp.McnnInt.C139_large_coordinate",
    "Orp.McnnInt.C139_no_overflow_partial",
    "Orp.McnnInt.C139_centre_near_mean",
    "Orp.McnnInt.C139_nonnegative_centre"
   ],
   "note": "False of the code: splitting a cluster of 2 to 40000 points with a negative sum of a coordinate is undefined behaviour (C139_negative_split), reached by four points between -4 and -1 with the default settings (C139_violated). Proved: without splits (no more points than the error threshold) and with coordinates small enough for the 32-bit sums, everything is defined, clusters lie at the truncated means of points given with their label, and predictions are the label of the nearest cluster."
  },
  {
   "property": "C140",
   "status": "proved",
   "theorems": [
    "Orp.Mlp.C140_symmetry",
    "Orp.Mlp.C140_order",
    "Orp.Mlp.C140_signs",
    "Orp.Mlp.C140_twins"
   ],
   "note": "Over exact arithmetic (in floating point the order of a sum changes its rounding). C140_order and C140_signs say when the hypothesis of C140_symmetry on the activation function holds."
  },
  {
   "property": "C141",
   "status": "proved",
   "theorems": [
    "Orp.Bayes.C141_bayes",
    "Orp.Bayes.C141_nearest_mean"
   ],
   "note": "Over the real numbers with the real log, sqrt and exp. Labels with a constant feature are excluded by the statement; what happens then is in C39 and C102."
  },
  {
   "property": "C142",
   "status": "proved",
   "theorems": [
    "Orp.Bayes.C142_weighted",
    "Orp.Bayes.C142_repetition",
    "Orp.Bayes.C142_zero_weight",
    "Orp.Bayes.C142_order"
   ],
   "note": "C142_weighted is the property; the other theorems give the cases in which its hypothesis holds."
  },
  {
   "property": "C143",
   "status": "partial",
   "theorems": [
    "Orp.Hoeffding.C143_reported",
    "Orp.Hoeffding.C143_split_partial",
    "Orp.Hoeffding.Five.C143_violated"
   ],
   "note": "False of the code: a point equal to a limit is counted on the right but sent to the left. C143_reported gives the gain reported exactly (strictly below the limit against the rest), C143_split_partial proves the property when no training point lies on the limit and the split is on the feature of the limit (C49), C143_violated is a split with reported gain 1 bit that divides nothing."
  },
  {
   "property": "C144",
   "status": "proved",
   "theorems": [
    "Orp.Mondrian.C144_times",
    "Orp.Mondrian.C144_group",
    "Orp.Mondrian.C144_first",
    "Orp.Mondrian.C144_history",
    "Orp.Mondrian.C144_unbound"
   ],
   "note": "Generalises C95, which is the case T = lifetime. Doubles as real numbers, log as the real logarithm, ideal draws."
  },
  {
   "property": "C145",
   "status": "proved",
   "theorems": [
    "Orp.Mondrian.C145_law",
    "Orp.Mondrian.C145_order",
    "Orp.Mondrian.C145_history",
    "Orp.Mondrian.C145_unbound",
    "Orp.Mondrian.C145_order_unbound",
    "Orp.Mondrian.C145_total"
   ],
   "note": "The consistency theorem of online Mondrian forests, proved of the code. Doubles as real numbers, log as the real logarithm, ideal draws. C145_total: the specification is a probability."
  },
  {
   "property": "C146",
   "status": "proved",
   "theorems": [
    "Orp.Mondrian.C146_joint",
    "Orp.Mondrian.C146_predictions",
    "Orp.Mondrian.C146_order",
    "Orp.Mondrian.C146_unbound",
    "Orp.Mondrian.C146_order_unbound"
   ],
   "note": "Doubles as real numbers, log as the real logarithm, exp any measurable function with exp 0 = 1, discount not negative, ideal draws. The size of the pool may also differ, as long as there are enough nodes."
  },
  {
   "property": "C147",
   "status": "proved",
   "theorems": [
    "Orp.Coarse.C147_times",
    "Orp.Coarse.C147_law",
    "Orp.Coarse.C147_predictions",
    "Orp.Coarse.C147_order"
   ],
   "note": "Doubles as real numbers, log as the real logarithm, exp any measurable function with exp 0 = 1, discount not negative, ideal draws. Enough memory: n(2m-1) nodes for n trees and m training points, two more with trimming. With the default EXTEND_NONE, and with the other extensions, the forest is not a Mondrian forest (C62, C77, C89)."
  },
  {
   "property": "C148",
   "status": "proved",
   "theorems": [
    "Orp.Mondrian.C148_expected",
    "Orp.Mondrian.C148_tail",
    "Orp.Mondrian.C148_bounded",
    "Orp.Mondrian.C148_memory",
    "Orp.Coarse.C148_coarse"
   ],
   "note": "Doubles as real numbers, log as the real logarithm, exp 0 = 1, discount not negative, ideal draws. The number of nodes is the size of the heap of nodes of the model of MondrianForestUnbound; the run fails only with probability 0."
  },
  {
   "property": "C149",
   "status": "proved",
   "theorems": [
    "Orp.Bayes.C149_estimates",
    "Orp.Bayes.C149_consistent"
   ],
   "note": "Doubles as real numbers with the real log, sqrt and exp; weight 1, the default. Uses the strong law of large numbers of Mathlib and C141."
  },
  {
   "property": "C150",
   "status": "proved",
   "theorems": [
    "Orp.Mondrian.C150_pure",
    "Orp.Mondrian.C150_predicts",
    "Orp.Mondrian.C150_learns",
    "Orp.Coarse.C150_coarse"
   ],
   "note": "Doubles as real numbers, log as the real logarithm, exp 0 = 1, ideal draws. With a positive discount factor the predictions need not follow the leaves: see C69 and C128 for the sign of the discount in the code; C150_pure holds for every discount factor that is not negative."
  },
  {
   "property": "C151",
   "status": "proved",
   "theorems": [
    "Orp.Ltc.C151_bends",
    "Orp.Ltc.C151_straight"
   ],
   "note": "Doubles as rational numbers (for consecutive timestamps the rounded computation gives the same limits, C111); timestamps without overflow."
  },
  {
   "property": "C152",
   "status": "proved",
   "theorems": [
    "Orp.Reservoir.C152_unbiased",
    "Orp.Reservoir.C152_variance",
    "Orp.Reservoir.C152_close"
   ],
   "note": "Doubles as real numbers, ideal draws, N below 2^32 (see C122 for longer streams)."
  },
  {
   "property": "C153",
   "status": "proved",
   "theorems": [
    "Orp.Hoeffding.C153_splits",
    "Orp.Hoeffding.C153_frequencies",
    "Orp.Hoeffding.C153_ties"
   ],
   "note": "Doubles as real numbers with the true logarithms; fewer than 2^31 points (int counters)."
  },
  {
   "property": "C154",
   "status": "partial",
   "theorems": [
    "Orp.Hoeffding.Witness.C154_violated",
    "Orp.Hoeffding.C154_majority_partial",
    "Orp.Hoeffding.C154_frequencies_partial"
   ],
   "note": "Violated: there is a distribution in which a limit determines the label and the tree splits almost surely, yet in the long run it predicts the same label for every query and is wrong with probability 1/3. Proved for every distribution with a most probable label: almost surely, after all but finitely many numbers of examples, the tree predicts the most probable label for every query, with scores that converge to the probabilities of the labels. Missing: predictions that depend on the features (the leaves share one set of counters, see C48). Doubles as real numbers; fewer than 2^31 points (int counters)."
  },
  {
   "property": "C155",
   "status": "proved",
   "theorems": [
    "Orp.Metrics.C155_error",
    "Orp.Metrics.C155_error_limit",
    "Orp.Metrics.C155_kappa"
   ],
   "note": "Scores are exact rational numbers (C124 bounds the rounding), pairs fewer than 2^31 (C129)."
  },
  {
   "property": "C156",
   "status": "proved",
   "theorems": [
    "Orp.Reservoir.C156_weighted_sum",
    "Orp.Reservoir.C156_expected_count",
    "Orp.Reservoir.C156_full"
   ],
   "note": "Draws are ideal real numbers in [0,1[."
  },
  {
   "property": "C157",
   "status": "proved",
   "theorems": [
    "Orp.Reservoir.C157_exponential_tail",
    "Orp.Reservoir.C157_share"
   ],
   "note": "Draws are ideal real numbers in [0,1[."
  },
  {
   "property": "C158",
   "status": "proved",
   "theorems": [
    "Orp.Mondrian.C158_many_trees",
    "Orp.Mondrian.C158_unbound",
    "Orp.Mondrian.C158_limit",
    "Orp.Mondrian.C158_agree",
    "Orp.Coarse.C158_coarse"
   ],
   "note": "Draws are ideal real numbers in [0,1[, exp and log are exact. The bound B is crude: it grows exponentially with the number of points."
  },
  {
   "property": "C159",
   "status": "partial",
   "theorems": [
    "Orp.Cuckoo.C159_relocation_partial",
    "Orp.Cuckoo.C159_last_place_stays",
    "Orp.Cuckoo.C159_stuck",
    "Orp.Cuckoo.C159_violated"
   ],
   "note": "False for the last of two or more places of a bucket, which is never chosen: a nearly empty filter refuses a third element for all random numbers. It holds for all other places."
  },
  {
   "property": "C160",
   "status": "proved",
   "theorems": [
    "Orp.Metrics.C160_copies",
    "Orp.Metrics.C160_assignment"
   ],
   "note": "The copy loops are modelled cell by cell."
  },
  {
   "property": "C161",
   "status": "proved",
   "theorems": [
    "Orp.Rounding.C161_accurate",
    "Orp.Rounding.C161_decision"
   ],
   "note": "Every product and sum is rounded once; overflow is not modelled."
  },
  {
   "property": "C162",
   "status": "proved",
   "theorems": [
    "Orp.Reservoir.C162_grid_law",
    "Orp.Reservoir.C162_close",
    "Orp.Reservoir.C162_included",
    "Orp.Reservoir.C162_long",
    "Orp.Reservoir.C162_forgets"
   ],
   "note": "A random number of R values is the ideal number rounded down to the grid; C162_grid_law gives its law."
  },
  {
   "property": "C163",
   "status": "partial",
   "theorems": [
    "Orp.Utils.C163_shuffle",
    "Orp.Utils.C163_pick",
    "Orp.Mondrian.C163_mondrian_training",
    "Orp.Mondrian.C163_mondrian_history",
    "Orp.Unbound.C163_unbound",
    "Orp.Mondrian.C163_mondrian_split",
    "Orp.Mondrian.C163_mondrian_not_separated",
    "Orp.Reservoir.C14_random_one_out_of_bounds",
    "Orp.Reservoir.C18_random_one_out_of_bounds",
    "Orp.Chained.C23_pointer_safety",
    "Orp.Cuckoo.C12_in_bounds"
   ],
   "note": "Proved for shuffle and pick_from_distribution; the theorems of the cuckoo filter (Unit01) and the chained reservoir (Call.Valid) already range over the closed interval. False for the two other reservoirs, which write past the end of the sample, and for Mondrian training: training stays defined and the trees well formed for numbers in ]0,1] in histories that may also contain predictions (for the unbounded forest also the destructor), but the split separates if and only if the number is not 1."
  },
  {
   "property": "C164",
   "status": "proved",
   "theorems": [
    "Orp.Utils.C164_close",
    "Orp.Utils.C164_arrangement",
    "Orp.Utils.C164_never_last"
   ],
   "note": "A random number of R values is the ideal number rounded down to the grid (Orp.Reservoir.C162_grid_law)."
  },
  {
   "property": "C165",
   "status": "proved",
   "theorems": [
    "Orp.Reservoir.C165_close",
    "Orp.Reservoir.C165_bias",
    "Orp.Reservoir.C165_never_full"
   ],
   "note": "A random number of R values is the ideal number rounded down to the grid (C162_grid_law)."
  },
  {
   "property": "C166",
   "status": "partial",
   "theorems": [
    "Orp.Chained.C166_leak",
    "Orp.Chained.C166_without_obsolete_partial",
    "Orp.Chained.C166_per_add_partial"
   ],
   "note": "False of the code with obsolete: shift_chain copies cells with their pointers, the cells it skips can never be reached again. Proved: without obsolete at most 5000 nodes for each slot are ever allocated and every one stays in the chain of a slot; in any history at most sample_size nodes for each add."
  },
  {
   "property": "C167",
   "status": "partial",
   "theorems": [
    "Orp.Utils.C167_law",
    "Orp.Utils.C167_close",
    "Orp.Utils.C167_zero_weight",
    "Orp.Utils.C167_first_weight_zero",
    "Orp.Utils.C167_never_drawn",
    "Orp.Mondrian.C167_mondrian_split",
    "Orp.Mondrian.C167_mondrian_two_points",
    "Orp.Unbound.C167_unbound_two_points",
    "Orp.Coarse.C167_coarse_split"
   ],
   "note": "The exact law for R values and the bound 1/R are proved, and that an index of probability 0 other than the first is never drawn. False of the code for the first index: with probability 0 it is still drawn with probability 1/R, since the comparison is u <= p[0]; a Mondrian tree (of any of the three classes) then reads uninitialised values. An index of positive probability below 1/R may never be drawn."
  },
  {
   "property": "C168",
   "status": "proved",
   "theorems": [
    "Orp.Chained.C168_close",
    "Orp.Chained.C168_item"
   ],
   "note": "Coupling with ideal random numbers; from 5000 items on the code may abort (C123), so the stream is shorter. C168_item refers to the law of C66, which is not uniform."
  },
  {
   "property": "C169",
   "status": "partial",
   "theorems": [
    "Orp.Utils.C169_law",
    "Orp.Utils.C169_close",
    "Orp.Utils.C169_zero",
    "Orp.Utils.C169_bounded",
    "Orp.Utils.C169_max",
    "Orp.Mondrian.C169_mondrian_close",
    "Orp.Mondrian.C169_mondrian_always",
    "Orp.Unbound.C169_unbound_close",
    "Orp.Unbound.C169_unbound_always",
    "Orp.Coarse.C169_coarse_time"
   ],
   "note": "The exact law for R values and the bound 1/R on the distribution function are proved. False of the code: the value is exactly 0 with probability 1/R and never above log(R)/rate. Consequence in the Mondrian trees of both classes: the probability that a point outside the box of a node joins it is right up to 1/R, but for a point far enough outside it is 0, while with ideal random numbers the point joins the node with a positive probability."
  },
  {
   "property": "C170",
   "status": "proved",
   "theorems": [
    "Orp.Mondrian.C170_inside",
    "Orp.Mondrian.C170_seen",
    "Orp.Unbound.C170_unbound_inside"
   ],
   "note": "In exact arithmetic, random numbers of the history in [0,1[, those of the new call arbitrary (at most 1 for the unbounded forest, where the counters of the split nodes are recomputed at once and nothing is allocated). What train returns is an uninitialised variable (C58)."
  },
  {
   "property": "C171",
   "status": "proved",
   "theorems": [
    "Orp.Mondrian.C171_random_numbers",
    "Orp.Mondrian.C171_history",
    "Orp.Unbound.C171_unbound",
    "Orp.Unbound.C171_unbound_history"
   ],
   "note": "In exact arithmetic: with rounding a fourth random number may be needed when no dimension is drawn."
  }
 ]
}