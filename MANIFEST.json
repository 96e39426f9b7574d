{
 "claims": [
  {
   "property": "C01",
   "status": "proved",
   "theorems": [
    "MF.Cache.C01_never_faults",
    "MF.Cache.C01_cache_sorted_stable"
   ],
   "note": ""
  },
  {
   "property": "C02",
   "status": "proved",
   "theorems": [
    "MF.Cache.C02_add_evicts_oldest",
    "MF.Cache.C02_resize_keeps",
    "MF.Cache.C02_size_zero_is_undefined"
   ],
   "note": ""
  },
  {
   "property": "C03",
   "status": "partial",
   "theorems": [
    "MF.Cache.C03_most_recent_fails_out_of_order",
    "MF.Cache.C03_most_recent_partial",
    "MF.Cache.C03_newest_stamp_kept"
   ],
   "note": "Documented claim is false for out-of-order input (C03_most_recent_fails_out_of_order); proved for in-order input, plus 'newest stamp is kept' for arbitrary input and sizes >= 2."
  },
  {
   "property": "C04",
   "status": "proved",
   "theorems": [
    "MF.Cache.C04_getInterval"
   ],
   "note": ""
  },
  {
   "property": "C05",
   "status": "proved",
   "theorems": [
    "MF.Cache.C05_getElemBeforeTime",
    "MF.Cache.C05_getElemAfterTime"
   ],
   "note": ""
  },
  {
   "property": "C06",
   "status": "proved",
   "theorems": [
    "MF.Cache.C06_getSurroundingInterval",
    "MF.Cache.C06_getSurroundingInterval_empty"
   ],
   "note": ""
  },
  {
   "property": "C07",
   "status": "proved",
   "theorems": [
    "MF.Cache.C07_forwards_everything",
    "MF.Cache.C07_extreme_times"
   ],
   "note": ""
  },
  {
   "property": "C08",
   "status": "proved",
   "theorems": [
    "MF.Signal.C08_output_calls_connected",
    "MF.Signal.C08_no_other_calls",
    "MF.Signal.C08_disconnect_connected",
    "MF.Signal.C08_disconnect",
    "MF.Signal.C08_disconnect_idempotent"
   ],
   "note": ""
  },
  {
   "property": "C09",
   "status": "proved",
   "theorems": [
    "MF.Signal.C09_isolation",
    "MF.Signal.C09_no_copy"
   ],
   "note": ""
  },
  {
   "property": "C10",
   "status": "partial",
   "theorems": [
    "MF.Signal.C10_isolation_partial",
    "MF.Signal.C10_isolation_const_partial",
    "MF.Signal.C10_violated"
   ],
   "note": "False for events constructed with nonconst_need_copy=false (C10_violated: signal9.hpp computes the forced-copy events and does not use them); proved for events that require copying and for callbacks without mutable parameters."
  },
  {
   "property": "C11",
   "status": "proved",
   "theorems": [
    "MF.Signal.C11_private_copy",
    "MF.Signal.C11_no_copy",
    "MF.Signal.C11_copy_of_mutable",
    "MF.Signal.C11_copies_are_private",
    "MF.Signal.C11_equality",
    "MF.Signal.C11_strict_total_order",
    "MF.Signal.C11_different_sources_throw"
   ],
   "note": ""
  },
  {
   "property": "C12",
   "status": "proved",
   "theorems": [
    "MF.Chain.C12_pipeline",
    "MF.Chain.C12_all_messages",
    "MF.Chain.C12_add",
    "MF.Chain.C12_transparent",
    "MF.Chain.C12_empty",
    "MF.Chain.C12_index",
    "MF.Chain.C12_out_of_range",
    "MF.Chain.C12_same_filter_twice"
   ],
   "note": ""
  },
  {
   "property": "C13",
   "status": "partial",
   "theorems": [
    "MF.Network.C13_reconnect_replaces_partial",
    "MF.Network.C13_cache",
    "MF.Network.C13_cache_violated"
   ],
   "note": "False for Cache (C13_cache_violated; exact behaviour C13_cache); proved for every other filter kind over all histories."
  },
  {
   "property": "C14",
   "status": "partial",
   "theorems": [
    "MF.Network.C14_output_safe_iff",
    "MF.Network.C14_safe_partial",
    "MF.Network.C14_violated"
   ],
   "note": "False for PassThrough, Chain and a reconnected Cache (C14_violated); C14_output_safe_iff is the exact condition, C14_safe_partial the positive part."
  },
  {
   "property": "C15",
   "status": "proved",
   "theorems": [
    "MF.ExactTime.C15_never_faults",
    "MF.ExactTime.C15_outputs_complete_equal_stamps",
    "MF.ExactTime.C15_complete_sets_never_wait"
   ],
   "note": ""
  },
  {
   "property": "C16",
   "status": "proved",
   "theorems": [
    "MF.ExactTime.C16_conservation",
    "MF.ExactTime.C16_exactly_one_fate"
   ],
   "note": ""
  },
  {
   "property": "C17",
   "status": "proved",
   "theorems": [
    "MF.ExactTime.C17_bounded",
    "MF.ExactTime.C17_discards_oldest"
   ],
   "note": ""
  },
  {
   "property": "C18",
   "status": "proved",
   "theorems": [
    "MF.ExactTime.C18_dropped_sets_incomplete",
    "MF.ExactTime.C18_output_drops_exactly_older"
   ],
   "note": ""
  },
  {
   "property": "C19",
   "status": "proved",
   "theorems": [
    "MF.ExactTime.C19_outputs_exactly_common_stamps",
    "MF.ExactTime.C19_interleaving_independent",
    "MF.ExactTime.C19_bounded_queue_subsequence"
   ],
   "note": ""
  },
  {
   "property": "C20",
   "status": "partial",
   "theorems": [
    "MF.ExactTime.C20_monotone_partial",
    "MF.ExactTime.C20_out_of_order_output"
   ],
   "note": "False for out-of-order inputs (C20_out_of_order_output); proved for in-order inputs, strict and non-strict."
  },
  {
   "property": "C21",
   "status": "proved",
   "theorems": [
    "MF.Epsilon.C21_no_other_fault",
    "MF.Epsilon.C21_sets_within_epsilon"
   ],
   "note": ""
  },
  {
   "property": "C22",
   "status": "proved",
   "theorems": [
    "MF.Epsilon.C22_each_message_once_in_order",
    "MF.Epsilon.C22_no_message_in_two_sets"
   ],
   "note": ""
  },
  {
   "property": "C23",
   "status": "proved",
   "theorems": [
    "MF.Epsilon.C23_bounded"
   ],
   "note": ""
  },
  {
   "property": "C24",
   "status": "partial",
   "theorems": [
    "MF.Epsilon.C24_terminates_partial",
    "MF.Epsilon.C24_negative_epsilon_hangs"
   ],
   "note": "Proved for every epsilon >= 0; false for negative epsilon with two or more inputs, where add never returns (C24_negative_epsilon_hangs)."
  },
  {
   "property": "C25",
   "status": "proved",
   "theorems": [
    "MF.Epsilon.C25_interleaving_independent"
   ],
   "note": ""
  },
  {
   "property": "C26",
   "status": "partial",
   "theorems": [
    "MF.Epsilon.C26_misses_matching_set",
    "MF.Epsilon.C26_finds_matches_partial"
   ],
   "note": "False for three or more inputs with epsilon > 0 (C26_misses_matching_set); proved for two inputs, for epsilon 0 and for identical stamps."
  },
  {
   "property": "C27",
   "status": "proved",
   "theorems": [
    "MF.Approx.C27_C28_returns_normally",
    "MF.Approx.C27_no_other_fault",
    "MF.Approx.C27_complete_sets",
    "MF.Approx.C27_queue_size_zero",
    "MF.Approx.C27_setters"
   ],
   "note": ""
  },
  {
   "property": "C28",
   "status": "proved",
   "theorems": [
    "MF.Approx.C28_terminates"
   ],
   "note": ""
  },
  {
   "property": "C29",
   "status": "proved",
   "theorems": [
    "MF.Approx.C29_bounded"
   ],
   "note": ""
  },
  {
   "property": "C30",
   "status": "proved",
   "theorems": [
    "MF.Approx.C30_each_message_once_in_order",
    "MF.Approx.C30_no_message_in_two_sets"
   ],
   "note": ""
  },
  {
   "property": "C31",
   "status": "proved",
   "theorems": [
    "MF.Approx.C31_max_interval_in_order",
    "MF.Approx.C31_max_interval"
   ],
   "note": ""
  },
  {
   "property": "C32",
   "status": "proved",
   "theorems": [
    "MF.Approx.C32_optimal",
    "MF.Approx.C32_exact_match_may_be_missed"
   ],
   "note": ""
  },
  {
   "property": "C33",
   "status": "proved",
   "theorems": [
    "MF.Approx.C33_prefix_of_canonical",
    "MF.Approx.C33_interleavings_agree"
   ],
   "note": ""
  },
  {
   "property": "C34",
   "status": "proved",
   "theorems": [
    "MF.Approx.C34_determined_sets_are_output"
   ],
   "note": ""
  },
  {
   "property": "C35",
   "status": "proved",
   "theorems": [
    "MF.Latest.C35_latest",
    "MF.Latest.C35_not_on_first"
   ],
   "note": ""
  },
  {
   "property": "C36",
   "status": "partial",
   "theorems": [
    "MF.Latest.C36_safe_iff",
    "MF.Latest.C36_in_order_partial",
    "MF.Latest.C36_rate_slots",
    "MF.Latest.C36_safe_if_all_first",
    "MF.Latest.C36_out_of_bounds",
    "MF.Latest.C36_wrong_rate",
    "MF.Latest.C36_configuration_partial",
    "MF.Latest.C36_undefined_iff",
    "MF.Latest.C36_nan_undefined"
   ],
   "note": "False (C36_out_of_bounds, C36_wrong_rate); the exact condition for safety is C36_safe_iff, the exact content of the rate table is C36_rate_slots, and the property is proved for inputs that first arrive in index order."
  },
  {
   "property": "C37",
   "status": "proved",
   "theorems": [
    "MF.Latest.C37_trigger",
    "MF.Latest.C37_clock_must_advance",
    "MF.Latest.C37_two_passes"
   ],
   "note": ""
  },
  {
   "property": "C38",
   "status": "partial",
   "theorems": [
    "MF.Copy.C38_approximate",
    "MF.Copy.C38_epsilon",
    "MF.Copy.C38_exact_partial",
    "MF.Copy.C38_exact_forgets_drop_callbacks",
    "MF.Copy.C38_exact_drop_callbacks_called",
    "MF.Copy.C38_exact_violated",
    "MF.Copy.C38_latest_forgets_rate_config",
    "MF.Copy.C38_latest_partial",
    "MF.Copy.C38_latest_configure_afterwards",
    "MF.Copy.C38_latest_violated",
    "MF.Copy.C38_exact_every_drop"
   ],
   "note": "Proved for ApproximateTime and ApproximateEpsilonTime. False for ExactTime drop callbacks (C38_exact_violated) and LatestTime rate configuration (C38_latest_violated); what is lost is characterised exactly by C38_exact_forgets_drop_callbacks and C38_latest_forgets_rate_config. Callbacks registered on the synchronizer get every dropped set (C38_exact_every_drop)."
  },
  {
   "property": "C39",
   "status": "proved",
   "theorems": [
    "MF.Aligner.C39_global_order"
   ],
   "note": ""
  },
  {
   "property": "C40",
   "status": "proved",
   "theorems": [
    "MF.Aligner.C40_accounting",
    "MF.Aligner.C40_content",
    "MF.Aligner.C40_dropped_iff"
   ],
   "note": ""
  },
  {
   "property": "C41",
   "status": "proved",
   "theorems": [
    "MF.Aligner.C41_terminates",
    "MF.Aligner.C41_terminates_positive_timeout",
    "MF.Aligner.C41_hangs_otherwise"
   ],
   "note": ""
  },
  {
   "property": "C42",
   "status": "proved",
   "theorems": [
    "MF.Aligner.C42_progress",
    "MF.Aligner.C42_next_expected",
    "MF.Aligner.C42_inactive_means_timed_out"
   ],
   "note": ""
  },
  {
   "property": "C43",
   "status": "proved",
   "theorems": [
    "MF.Aligner.C43_not_dropped_while_active",
    "MF.Aligner.C43_no_loss"
   ],
   "note": ""
  },
  {
   "property": "C44",
   "status": "proved",
   "theorems": [
    "MF.Sequencer.C44_output_sorted",
    "MF.Sequencer.C44_late_message_ignored",
    "MF.Sequencer.C44_content",
    "MF.Sequencer.C44_nothing_lost"
   ],
   "note": ""
  },
  {
   "property": "C45",
   "status": "proved",
   "theorems": [
    "MF.Sequencer.C45_delay",
    "MF.Sequencer.C45_no_output_on_add",
    "MF.Sequencer.C45_exact"
   ],
   "note": ""
  },
  {
   "property": "C46",
   "status": "partial",
   "theorems": [
    "MF.Sequencer.C46_bound",
    "MF.Sequencer.C46_no_drop_before_full",
    "MF.Sequencer.C46_overflow",
    "MF.Sequencer.C46_drops_oldest_partial",
    "MF.Sequencer.C46_equal_stamps_dropped_together"
   ],
   "note": "Bound, no drop before full and the exact overflow behaviour proved; 'exactly one message is dropped' is false for equal stamps (C46_equal_stamps_dropped_together) and proved for different stamps."
  },
  {
   "property": "C47",
   "status": "partial",
   "theorems": [
    "MF.Sequencer.C47_header_message_throws",
    "MF.Sequencer.C47_header_messages_never_output",
    "MF.Sequencer.C47_system_time_partial"
   ],
   "note": "False: C47_header_message_throws and C47_header_messages_never_output prove the negation for header-stamped messages; proved for system-time stamps only."
  },
  {
   "property": "C48",
   "status": "partial",
   "theorems": [
    "MF.Subscriber.C48_current",
    "MF.Subscriber.C48_forwards_only_current_partial",
    "MF.Subscriber.C48_others_silent",
    "MF.Subscriber.C48_copied_subscription_violates"
   ],
   "note": "At most one subscription and which one: proved for all histories (C48_current). 'Only its messages are output' is proved for users who keep no pointer from getSubscriber(), and false otherwise (C48_copied_subscription_violates)."
  },
  {
   "property": "C49",
   "status": "partial",
   "theorems": [
    "MF.Subscriber.C49_exact",
    "MF.Subscriber.C49_restores_partial",
    "MF.Subscriber.C49_wrong_node",
    "MF.Subscriber.C49_safe_iff",
    "MF.Subscriber.C49_shared_node_dangles",
    "MF.Subscriber.C49_node_lifetime",
    "MF.Subscriber.C49_step_safe_iff"
   ],
   "note": "C49_exact gives the exact behaviour for all histories; the property fails after an empty topic with shared node and options and after a throwing subscribe (C49_wrong_node), and the node may dangle (C49_shared_node_dangles; exact condition C49_safe_iff)."
  },
  {
   "property": "C50",
   "status": "proved",
   "theorems": [
    "MF.Network.C50_routing",
    "MF.Network.C50_destroyed"
   ],
   "note": ""
  },
  {
   "property": "C51",
   "status": "proved",
   "theorems": [
    "MF.Mutex.C51_linearizable",
    "MF.Mutex.C51_all_calls_made",
    "MF.Mutex.C51_one_at_a_time",
    "MF.Mutex.C51_mutual_exclusion",
    "MF.Mutex.C51_faults",
    "MF.Mutex.C51_exact_time",
    "MF.Mutex.C51_exact_time_statements",
    "MF.Mutex.C51_exact_time_schedule_independent",
    "MF.Mutex.C51_approximate_time",
    "MF.Mutex.C51_approximate_time_schedules_agree",
    "MF.Mutex.C51_epsilon_time",
    "MF.Mutex.C51_epsilon_time_schedule_independent",
    "MF.Mutex.C51_input_aligner",
    "MF.Mutex.C51_signal"
   ],
   "note": ""
  },
  {
   "property": "C52",
   "status": "proved",
   "theorems": [
    "MF.Lock.C52_no_deadlock",
    "MF.Lock.C52_all_calls_return",
    "MF.Lock.C52_reconnecting_in_callback",
    "MF.Lock.C52_feeding_back",
    "MF.Lock.C52_crossed_callbacks_deadlock",
    "MF.Lock.C52_deliver_locks",
    "MF.Lock.C52_timer_locks"
   ],
   "note": ""
  },
  {
   "property": "C53",
   "status": "proved",
   "theorems": [
    "MF.Sequencer.C53_single_timer_linearizable",
    "MF.Sequencer.C53_single_timer_sorted",
    "MF.Sequencer.C53_delay",
    "MF.Sequencer.C53_no_duplicates",
    "MF.Sequencer.C53_many_timers",
    "MF.Sequencer.C53_two_timers_disorder"
   ],
   "note": ""
  },
  {
   "property": "C54",
   "status": "proved",
   "theorems": [
    "MF.Cache.C54_content_linearizable",
    "MF.Cache.C54_no_fault",
    "MF.Cache.C54_cached_before_passed_on",
    "MF.Cache.C54_exactly_once",
    "MF.Cache.C54_progress",
    "MF.Cache.C54_order_may_differ"
   ],
   "note": ""
  },
  {
   "property": "C55",
   "status": "partial",
   "theorems": [
    "MF.Throw.C55_without_exceptions",
    "MF.Throw.C55_signal_stops_at_first_exception",
    "MF.Throw.C55_signal_recovers",
    "MF.Throw.C55_cache_unaffected",
    "MF.Throw.C55_cache_propagates",
    "MF.Throw.C55_sequencer_same_queue",
    "MF.Throw.C55_sequencer_loses_rest",
    "MF.Throw.C55_sequencer_loss_witness",
    "MF.Throw.C55_latest_unaffected",
    "MF.Throw.C55_latest_propagates",
    "MF.Throw.C55_aligner_global_order",
    "MF.Throw.C55_aligner_content",
    "MF.Throw.C55_aligner_retries",
    "MF.Throw.C55_aligner_terminates",
    "MF.Throw.C55_exact_no_fault",
    "MF.Throw.C55_exact_output",
    "MF.Throw.C55_exact_accounting",
    "MF.Throw.C55_exact_bounded_after_return",
    "MF.Throw.C55_exact_bounded_partial",
    "MF.Throw.C55_exact_set_stays",
    "MF.Throw.C55_exact_complete_pending",
    "MF.Throw.C55_exact_complete_set_dropped",
    "MF.Throw.C55_exact_drop_throws_exceeds",
    "MF.Throw.C55_epsilon_output",
    "MF.Throw.C55_epsilon_each_message_once",
    "MF.Throw.C55_epsilon_retries",
    "MF.Throw.C55_epsilon_same_sets",
    "MF.Throw.C55_epsilon_bound_partial",
    "MF.Throw.C55_epsilon_terminates",
    "MF.Throw.C55_epsilon_queue_exceeded",
    "MF.Throw.C55_approx_without_exceptions",
    "MF.Throw.C55_approx_no_fault",
    "MF.Throw.C55_approx_complete_sets",
    "MF.Throw.C55_approx_each_once_in_order",
    "MF.Throw.C55_approx_bounded_partial",
    "MF.Throw.C55_approx_max_interval",
    "MF.Throw.C55_approx_set_stays",
    "MF.Throw.C55_approx_exception_reaches_caller",
    "MF.Throw.C55_approx_stalls",
    "MF.Throw.C55_approx_stall_witness",
    "MF.Throw.C55_approx_stall_loses_set",
    "MF.Throw.C55_aligner_exception_reaches_caller",
    "MF.Throw.C55_epsilon_exception_reaches_caller",
    "MF.Throw.C55_exact_exception_reaches_caller"
   ],
   "note": "Proved for every component. The bound on buffered messages is false as stated and is proved in the weaker form that holds: queue_size plus one per exception (ApproximateEpsilonTime, ApproximateTime); ExactTime exceeds queue_size when a drop callback throws. Other findings: TimeSequencer loses the remaining due messages; ExactTime may drop a complete set; ApproximateTime stalls after an exception until a queue overflows (C55_approx_stalls), but no assertion ever fails."
  },
  {
   "property": "C56",
   "status": "proved",
   "theorems": [
    "MF.Time64.C56_no_overflow",
    "MF.Time64.C56_header_time",
    "MF.Time64.C56_header_order",
    "MF.Time64.C56_approx_exact",
    "MF.Time64.C56_age_penalty_overflow",
    "MF.Time64.C56_epsilon_exact",
    "MF.Time64.C56_epsilon_overflow",
    "MF.Time64.C56_aligner_exact",
    "MF.Time64.C56_sequencer_exact"
   ],
   "note": "Proved as equality of whole histories: the filters with checked 64-bit arithmetic do what the unbounded models do, for header stamps, durations up to the default maximum and age penalties up to 1. ExactTime, Cache and LatestTime make no sums of stamps. Findings outside these bounds: age penalty 9 with one unset stamp makes ApproximateTime throw; epsilon INT64_MAX makes ApproximateEpsilonTime throw."
  },
  {
   "property": "C57",
   "status": "proved",
   "theorems": [
    "MF.Latest.C57_periodic"
   ],
   "note": ""
  },
  {
   "property": "C58",
   "status": "proved",
   "theorems": [
    "MF.Latest.C58_estimate_within_bounds"
   ],
   "note": ""
  },
  {
   "property": "C59",
   "status": "proved",
   "theorems": [
    "MF.Network.C59_destroy_safe_iff",
    "MF.Network.C59_connect_safe_iff",
    "MF.Network.C59_source_destroyed_first",
    "MF.Network.C59_step_safe_iff",
    "MF.Network.C59_history_safe_iff"
   ],
   "note": ""
  },
  {
   "property": "C60",
   "status": "partial",
   "theorems": [
    "MF.Copy.C60_exact",
    "MF.Copy.C60_approximate_partial",
    "MF.Copy.C60_approximate_violated",
    "MF.Copy.C60_epsilon_partial",
    "MF.Copy.C60_epsilon_dead",
    "MF.Copy.C60_latest"
   ],
   "note": "Proved for ExactTime and, once every input has delivered, LatestTime. False for ApproximateTime holding a candidate (C60_approximate_violated: a set of null messages is output) and for ApproximateEpsilonTime with waiting messages (C60_epsilon_dead: never outputs again)."
  },
  {
   "property": "C61",
   "status": "proved",
   "theorems": [
    "MF.Copy.C61_construction_race",
    "MF.Copy.C61_exact"
   ],
   "note": ""
  },
  {
   "property": "C62",
   "status": "proved",
   "theorems": [
    "MF.Mutex.C62_locked_calls_no_race",
    "MF.Mutex.C62_unlocked_call_races",
    "MF.Mutex.C62_protected_filters",
    "MF.Mutex.C62_without_setters",
    "MF.Mutex.C62_setters_race"
   ],
   "note": ""
  },
  {
   "property": "C63",
   "status": "proved",
   "theorems": [
    "MF.Py.C63_complete_sets",
    "MF.Py.C63_each_once"
   ],
   "note": ""
  },
  {
   "property": "C64",
   "status": "proved",
   "theorems": [
    "MF.Py.C64_bounded",
    "MF.Py.C64_at_most_one_set",
    "MF.Py.C64_evicts_oldest",
    "MF.Py.C64_nothing_withheld"
   ],
   "note": ""
  },
  {
   "property": "C65",
   "status": "proved",
   "theorems": [
    "MF.Py.C65_finds_all_sets",
    "MF.Py.C65_interleaving",
    "MF.Py.C65_time_order"
   ],
   "note": ""
  },
  {
   "property": "C66",
   "status": "partial",
   "theorems": [
    "MF.Py.C66_always_returns_partial",
    "MF.Py.C66_exception_blocks_forever",
    "MF.Py.C66_raises_iff",
    "MF.Py.C66_headerless_message_disables",
    "MF.Py.C66_raising_callback_disables",
    "MF.Py.C66_approximate_exception_blocks_forever",
    "MF.Py.C66_approximate_always_returns_partial"
   ],
   "note": "False as stated: after any call that raised, every later call blocks forever (C66_exception_blocks_forever, with concrete cases). Proved: which calls raise (C66_raises_iff), and that without exceptions every call returns."
  },
  {
   "property": "C67",
   "status": "proved",
   "theorems": [
    "MF.Py.C67_complete_sets",
    "MF.Py.C67_each_once",
    "MF.Py.C67_bounded",
    "MF.Py.C67_at_most_one_set",
    "MF.Py.C67_evicts_oldest",
    "MF.Py.C67_headerless_ignored"
   ],
   "note": ""
  },
  {
   "property": "C68",
   "status": "proved",
   "theorems": [
    "MF.Py.C68_nothing_withheld",
    "MF.Py.C68_zero_slop_outputs_nothing"
   ],
   "note": ""
  },
  {
   "property": "C69",
   "status": "proved",
   "theorems": [
    "MF.Py.C69_closest_first",
    "MF.Py.C69_two_inputs"
   ],
   "note": ""
  },
  {
   "property": "C70",
   "status": "partial",
   "theorems": [
    "MF.PyCache.C70_last_messages",
    "MF.PyCache.C70_headerless_ignored",
    "MF.PyCache.C70_getInterval",
    "MF.PyCache.C70_getInterval_reversed",
    "MF.PyCache.C70_clock_mismatch",
    "MF.PyCache.C70_getElemAfterTime_first_arrived",
    "MF.PyCache.C70_getElemBeforeTime_last_arrived",
    "MF.PyCache.C70_getElemAfterTime_partial",
    "MF.PyCache.C70_getElemBeforeTime_partial",
    "MF.PyCache.C70_extreme_times_partial",
    "MF.PyCache.C70_getLast_partial",
    "MF.PyCache.C70_violated_out_of_order",
    "MF.PyCache.C70_getLast_violated_equal_times",
    "MF.PyCache.C70_mixed_clocks"
   ],
   "note": "What is held, passed on and returned by getInterval is proved for every history. getElemAfterTime/getElemBeforeTime return the first/last ARRIVED match for every history; that this is the oldest/newest in time is false for out-of-order input (C70_violated_out_of_order) and proved for in-order input. getLast is false for equal times (C70_getLast_violated_equal_times); one stamp of another clock type makes queries raise (C70_mixed_clocks)."
  },
  {
   "property": "C71",
   "status": "partial",
   "theorems": [
    "MF.PyCache.C71_no_fault",
    "MF.PyCache.C71_held_when_idle",
    "MF.PyCache.C71_eviction_bound",
    "MF.PyCache.C71_passed_on",
    "MF.PyCache.C71_uninterrupted_partial",
    "MF.PyCache.C71_pairing_violated",
    "MF.PyCache.C71_over_eviction_violated"
   ],
   "note": "Proved: no call fails, the bound, and passing on exactly once. False: messages paired with their own times (C71_pairing_violated), and holding cache_size messages (C71_over_eviction_violated); at most W-1 too many are evicted with W threads."
  },
  {
   "property": "C72",
   "status": "partial",
   "theorems": [
    "MF.PyFilter.C72_each_callback_once",
    "MF.PyFilter.C72_raising_callback",
    "MF.PyFilter.C72_registering_inside_callback"
   ],
   "note": "Proved for callbacks that neither raise nor register on the calling filter. A raising callback keeps the message from those after it (C72_raising_callback); registering inside a callback raises RuntimeError (C72_registering_inside_callback)."
  },
  {
   "property": "C73",
   "status": "partial",
   "theorems": [
    "MF.Py.C73_construction_ts",
    "MF.Py.C73_construction_approx_partial",
    "MF.Py.C73_construction_violated",
    "MF.Py.C73_construction_window",
    "MF.Py.C73_construction_locked",
    "MF.Py.C73_replaced_inputs_ts",
    "MF.Py.C73_replaced_inputs_approx",
    "MF.Py.C73_reconnect_ts",
    "MF.Py.C73_reconnect_approx",
    "MF.PyCache.C73_construction_cache",
    "MF.Py.C73_window_exact",
    "MF.Py.C73_leaked_lock_blocks"
   ],
   "note": "Proved except for one window: two messages that arrive between the creation of the lock and the slop disable an ApproximateTimeSynchronizer forever (C73_construction_violated)."
  },
  {
   "property": "C74",
   "status": "partial",
   "theorems": [
    "MF.NullSlots.C74_safe_iff",
    "MF.NullSlots.C74_output_callbacks_safe",
    "MF.NullSlots.C74_nullable_drop_callbacks_safe",
    "MF.NullSlots.C74_drop_callbacks_fault"
   ],
   "note": "Proved for output callbacks, and for drop callbacks that take const pointers or const events; the exact condition is C74_safe_iff. False for other drop callbacks: every dropped set has a missing message, and C74_drop_callbacks_fault gives the fault."
  },
  {
   "property": "C75",
   "status": "proved",
   "theorems": [
    "MF.EventVars.C75_messages_never_modified",
    "MF.EventVars.C75_mutable_messages_private",
    "MF.EventVars.C75_same_pointer",
    "MF.EventVars.C75_new_pointer",
    "MF.EventVars.C75_content",
    "MF.EventVars.C75_event_unchanged",
    "MF.EventVars.C75_copy_of_const",
    "MF.EventVars.C75_copy_of_mutable_shares",
    "MF.EventVars.C75_no_fault",
    "MF.EventVars.C75_faults",
    "MF.EventVars.C75_undefined",
    "MF.EventVars.C75_default"
   ],
   "note": ""
  },
  {
   "property": "C76",
   "status": "partial",
   "theorems": [
    "MF.Copy.C76_standalone_policy_asserts",
    "MF.Copy.C76_outputs_go_to_other",
    "MF.Copy.C76_exact",
    "MF.Copy.C76_approximate_partial",
    "MF.Copy.C76_approximate_violated",
    "MF.Copy.C76_epsilon_partial",
    "MF.Copy.C76_epsilon_dead",
    "MF.Copy.C76_epsilon_violated",
    "MF.Copy.C76_latest"
   ],
   "note": "False as stated: the operators also assign the parent pointer, so a stand-alone policy makes every message fail an assertion (C76_standalone_policy_asserts) and another synchronizer's policy sends the sets there (C76_outputs_go_to_other). With init() called afterwards it holds for ExactTime and LatestTime up to drop callbacks / rate configuration, for ApproximateTime if the assigned policy holds no candidate, for ApproximateEpsilonTime exactly if the numbers of inputs with waiting messages agree."
  },
  {
   "property": "C77",
   "status": "partial",
   "theorems": [
    "MF.Latest.C77_other_clock_silent",
    "MF.Latest.C77_set_back_silent",
    "MF.Latest.C77_throws_only_if_mixed",
    "MF.Latest.C77_mixed_clocks_throw"
   ],
   "note": "False as stated. Once every input has delivered, nothing is output under a clock of another type, however long (C77_other_clock_silent); after the clock is set back nothing is output until it has caught up (C77_set_back_silent); in both cases rates and latest messages are kept exactly. If the clock type changes before every input has delivered, a message can throw (C77_mixed_clocks_throw), and only then (C77_throws_only_if_mixed)."
  },
  {
   "property": "C78",
   "status": "partial",
   "theorems": [
    "MF.ClockMix.C78_cache_one_clock",
    "MF.ClockMix.C78_cache_same_clock",
    "MF.ClockMix.C78_cache_add_partial",
    "MF.ClockMix.C78_cache_stuck",
    "MF.ClockMix.C78_cache_loses_message",
    "MF.ClockMix.C78_exact_one_clock",
    "MF.ClockMix.C78_exact_add",
    "MF.ClockMix.C78_exact_accepted",
    "MF.ClockMix.C78_exact_same_clock",
    "MF.ClockMix.C78_exact_stuck",
    "MF.ClockMix.C78_epsilon_outputs",
    "MF.ClockMix.C78_epsilon_ros",
    "MF.ClockMix.C78_epsilon_add_partial",
    "MF.ClockMix.C78_epsilon_dead",
    "MF.ClockMix.C78_epsilon_silent",
    "MF.ClockMix.C78_epsilon_bound_violated",
    "MF.ClockMix.C78_approx_same_clock",
    "MF.ClockMix.C78_approx_one_clock",
    "MF.ClockMix.C78_approx_no_false_throw",
    "MF.ClockMix.C78_approx_two_clocks_partial",
    "MF.ClockMix.C78_approx_throws_once",
    "MF.ClockMix.C78_approx_dead",
    "MF.ClockMix.C78_approx_bound_violated",
    "MF.ClockMix.C78_aligner",
    "MF.ClockMix.C78_aligner_throws"
   ],
   "note": "Holds for ExactTime (C78_exact_*) and InputAligner (C78_aligner*). False for a full Cache, which loses its oldest message to the refused one (C78_cache_add_partial gives the exact effect, C78_cache_loses_message the witness), for ApproximateEpsilonTime, which keeps the message, throws from then on at every call and lets its queues grow without bound (C78_epsilon_dead, C78_epsilon_bound_violated), and for ApproximateTime, which keeps it (C78_approx_two_clocks_partial), may never output again (C78_approx_dead) and then exceeds its queue size (C78_approx_bound_violated). No set mixes clock types in any of them, for every history (C78_approx_one_clock for ApproximateTime)."
  },
  {
   "property": "C79",
   "status": "proved",
   "theorems": [
    "MF.ClockMix.C79_getInterval",
    "MF.ClockMix.C79_getElemBeforeTime",
    "MF.ClockMix.C79_getElemAfterTime",
    "MF.ClockMix.C79_getSurroundingInterval",
    "MF.ClockMix.C79_clock_exists"
   ],
   "note": ""
  },
  {
   "property": "C80",
   "status": "proved",
   "theorems": [
    "MF.Pipeline.C80_cache_holds_most_recent",
    "MF.Pipeline.C80_end_to_end"
   ],
   "note": ""
  },
  {
   "property": "C81",
   "status": "proved",
   "theorems": [
    "MF.Pipeline.C81_queue_size_irrelevant",
    "MF.Pipeline.C81_returns",
    "MF.Pipeline.C81_exactly_common_stamps",
    "MF.Pipeline.C81_end_to_end",
    "MF.Pipeline.C81_arrival_order_irrelevant"
   ],
   "note": ""
  },
  {
   "property": "C82",
   "status": "proved",
   "theorems": [
    "MF.Pipeline.C82_exactly_common_stamps",
    "MF.Pipeline.C82_returns",
    "MF.Pipeline.C82_end_to_end"
   ],
   "note": ""
  },
  {
   "property": "C83",
   "status": "proved",
   "theorems": [
    "MF.Pipeline.C83_epsilon_finds_matches",
    "MF.Pipeline.C83_approximate_canonical"
   ],
   "note": ""
  },
  {
   "property": "C84",
   "status": "partial",
   "theorems": [
    "MF.Life.C84_safe",
    "MF.Life.C84_nothing_runs_afterwards",
    "MF.Life.C84_destructor_waits",
    "MF.Life.C84_can_finish",
    "MF.Life.C84_timer_partial",
    "MF.Life.C84_timer_race",
    "MF.Life.C84_timer_violated",
    "MF.Life.C84_not_detaching_violated"
   ],
   "note": "True for Synchronizer, TimeSynchronizer, InputAligner without timer and a Cache connected once (C84_safe, C84_nothing_runs_afterwards, C84_destructor_waits, C84_can_finish). False for TimeSequencer and InputAligner with a timer, whose destructors do not wait for the timer callback (C84_timer_violated; C84_timer_partial and C84_timer_race give the condition), and for PassThrough, Chain and a Cache connected twice (C84_not_detaching_violated). A filter destroyed by its own callback never comes back from the destructor (C84_destructor_waits)."
  },
  {
   "property": "C85",
   "status": "proved",
   "theorems": [
    "MF.Life.C85_construction_safe",
    "MF.Life.C85_synchronizer_exact",
    "MF.Life.C85_synchronizer_race",
    "MF.Life.C85_synchronizer_violated"
   ],
   "note": ""
  },
  {
   "property": "C86",
   "status": "proved",
   "theorems": [
    "MF.Py.C86_statements",
    "MF.Py.C86_time_synchronizer",
    "MF.Py.C86_schedule_independent",
    "MF.Py.C86_approximate",
    "MF.Py.C86_blocks_only_after_exception",
    "MF.Py.C86_exception_blocks_every_thread"
   ],
   "note": ""
  },
  {
   "property": "C87",
   "status": "proved",
   "theorems": [
    "MF.PyFilter.C87_fixed_callbacks",
    "MF.PyFilter.C87_one_registrar",
    "MF.PyFilter.C87_raises_iff",
    "MF.PyFilter.C87_returned_complete",
    "MF.PyFilter.C87_registration_lost",
    "MF.PyFilter.C87_output_cut_short",
    "MF.PyFilter.C87_raises_at_the_end"
   ],
   "note": "True as stated (C87_fixed_callbacks, C87_one_registrar, C87_returned_complete). The unrestricted claim, that every registered callback gets every later message, is false: two concurrent registrations can get the same id and one is lost (C87_registration_lost), and a registration during an output makes the output raise RuntimeError, exactly if it changes the number of callbacks (C87_raises_iff), so that callbacks registered before miss the message (C87_output_cut_short), or after all have been called (C87_raises_at_the_end). Inside a synchronizer such an exception leaves the lock taken (C86, C66)."
  },
  {
   "property": "C88",
   "status": "partial",
   "theorems": [
    "MF.ExactTime.C88_exact_smaller_queue_partial",
    "MF.ExactTime.C88_exact_blocked",
    "MF.Approx.C88_approximate_forgets",
    "MF.Approx.C88_approximate_mixed",
    "MF.Approx.C88_approximate_recovers",
    "MF.Epsilon.C88_epsilon_memoryless",
    "MF.Epsilon.C88_epsilon_forgets",
    "MF.Aligner.C88_aligner_ignores_restart",
    "MF.Sequencer.C88_sequencer_ignores_restart",
    "MF.Cache.C88_cache_smaller_partial",
    "MF.Cache.C88_cache_one_place",
    "MF.Py.C88_py_exact_blocked",
    "MF.Py.C88_py_approximate_blocked"
   ],
   "note": "True for ApproximateTime (C88_approximate_forgets, C88_approximate_recovers: later sets use new messages only, and are optimal as in C32; in between, sets may mix old and new messages, C88_approximate_mixed) and for ApproximateEpsilonTime (C88_epsilon_forgets; C88_epsilon_memoryless says more). False for the others, and what happens instead is proved: ExactTime works with a queue that is shorter by the number of sets left over (C88_exact_smaller_queue_partial) and outputs nothing at all if these fill the queue (C88_exact_blocked); InputAligner and TimeSequencer ignore everything older than the last output (C88_aligner_ignores_restart, C88_sequencer_ignores_restart); a Cache keeps the old messages and uses the remaining places, one place if it was full (C88_cache_smaller_partial, C88_cache_one_place); the Python synchronizers output nothing if one queue is full of old messages (C88_py_exact_blocked, C88_py_approximate_blocked)."
  },
  {
   "property": "C89",
   "status": "partial",
   "theorems": [
    "MF.Approx.C89_larger_bounds_never_delay",
    "MF.Approx.C89_bounds_must_hold",
    "MF.Approx.C89_output_is_determined",
    "MF.Approx.C89_two_inputs_exact",
    "MF.Approx.C89_exact_partial",
    "MF.Approx.C89_next_arrival_partial",
    "MF.Approx.C89_may_be_withheld",
    "MF.Approx.C89_larger_bounds_only_help"
   ],
   "note": "'Never earlier' holds for any number of inputs (C89_output_is_determined). With two inputs 'never later' holds too, so that output and determined sets are the same (C89_two_inputs_exact). Larger bounds only help, for any number of inputs (C89_larger_bounds_never_delay, with C89_larger_bounds_only_help for two), as long as the inputs respect them (C89_bounds_must_hold). With three or more inputs it is false: a set can be determined by a message on an input that still has messages to look at, and is then withheld (C89_may_be_withheld). What holds: after a message on an exhausted input exactly the determined sets were output (C89_exact_partial), and a withheld set comes out with the next message on a certain input (C89_next_arrival_partial)."
  },
  {
   "property": "C90",
   "status": "proved",
   "theorems": [
    "MF.C90_approx_rounds",
    "MF.C90_approx_gap_needed",
    "MF.C90_approx_queue_needed",
    "MF.C90_epsilon_rounds",
    "MF.C90_exact_rounds",
    "MF.C90_python_approx_rounds",
    "MF.C90_python_span_needed",
    "MF.C90_python_exact_rounds"
   ],
   "note": "ApproximateTime: span at most w <= max interval, rounds at least w apart, queue size above the lag (C90_approx_rounds); neither margin can be reduced (C90_approx_gap_needed, C90_approx_queue_needed). ApproximateEpsilonTime: span at most epsilon, queue size at least the lag, distance of rounds irrelevant. ExactTime: equal stamps, unlimited queue or queue size at least the lag; no drop. Python: span less than the slop (C90_python_span_needed), rounds at least the slop apart, queue size at least the lag and not zero."
  },
  {
   "property": "C91",
   "status": "partial",
   "theorems": [
    "MF.Approx.C91_no_false_alarm",
    "MF.Approx.C91_noticed_iff",
    "MF.Approx.C91_complete_while_waiting_partial",
    "MF.Approx.C91_may_be_missed",
    "MF.Approx.C91_printed",
    "MF.Approx.C91_printing_changes_nothing",
    "MF.Approx.C91_second_synchronizer_silent"
   ],
   "note": "'Only if' holds (C91_no_false_alarm, C91_printed). 'If' is false (C91_may_be_missed): a violation is noticed exactly if the message before still waits in its queue (C91_noticed_iff), so nothing is missed as long as some input has not sent anything (C91_complete_while_waiting_partial), but afterwards violations can go unnoticed. 'Once' holds per process and text, not per synchronizer: of two synchronizers of the same type only one prints (C91_printed, C91_second_synchronizer_silent)."
  },
  {
   "property": "C92",
   "status": "partial",
   "theorems": [
    "MF.PySubscriber.C92_constructs_iff_partial",
    "MF.PySubscriber.C92_positional_qos_rejected",
    "MF.PySubscriber.C92_subscription",
    "MF.PySubscriber.C92_forwards",
    "MF.PySubscriber.C92_attributes"
   ],
   "note": "'Takes the same arguments' is false: the constructor succeeds exactly with three positional arguments and everything else by keyword (C92_constructs_iff_partial); in particular the quality of service cannot be given by position as in rclpy, and the topic not by keyword (C92_positional_qos_rejected). The rest holds: the settings (C92_subscription), forwarding (C92_forwards), attributes (C92_attributes; on an object without a subscription every lookup that falls through ends in RecursionError)."
  },
  {
   "property": "C93",
   "status": "partial",
   "theorems": [
    "MF.PyNet.C93_cause_of_blocking",
    "MF.PyNet.C93_all_return_partial",
    "MF.PyNet.C93_exception_disables_traceback",
    "MF.PyNet.C93_disabled_forever",
    "MF.PyNet.C93_feedback_blocks",
    "MF.PyNet.C93_exception_spreads_upstream",
    "MF.PyNet.C93_mutual_feedback_deadlock"
   ],
   "note": "True without exceptions (C93_all_return_partial). An exception leaves taken the locks of all synchronizers in its traceback, and no others (C93_exception_disables_traceback), forever (C93_disabled_forever); this is the only cause of blocking (C93_cause_of_blocking). So an exception in one synchronizer disables those upstream of it too (C93_exception_spreads_upstream). With feedback threads block without exception (C93_feedback_blocks, C93_mutual_feedback_deadlock)."
  },
  {
   "property": "C94",
   "status": "proved",
   "theorems": [
    "MF.Approx.C94_progress",
    "MF.Approx.C94_no_overflow",
    "MF.Approx.C94_sustained",
    "MF.Approx.C94_recent",
    "MF.Approx.C94_interval_needed",
    "MF.Approx.C94_silent_input",
    "MF.Approx.C94_room_needed"
   ],
   "note": "C94_interval_needed, C94_silent_input and C94_room_needed show that the conditions cannot be dropped. The factor 5 is sufficient; it is not shown to be the least."
  },
  {
   "property": "C95",
   "status": "proved",
   "theorems": [
    "MF.ExactTime.C95_bounded_outputs",
    "MF.ExactTime.C95_larger_queue",
    "MF.ExactTime.C95_enough_room",
    "MF.ExactTime.C95_order_needed"
   ],
   "note": "C95_order_needed shows that inputs in stamp order are needed."
  },
  {
   "property": "C96",
   "status": "proved",
   "theorems": [
    "MF.Py.C96_bounded_outputs",
    "MF.Py.C96_larger_queue",
    "MF.Py.C96_enough_room",
    "MF.Py.C96_python_loses_no_more",
    "MF.Py.C96_two_inputs_agree",
    "MF.Py.C96_three_inputs_differ",
    "MF.Py.C96_order_needed"
   ],
   "note": "C96_order_needed shows that inputs in stamp order are needed; C96_three_inputs_differ is the difference to C++."
  },
  {
   "property": "C97",
   "status": "proved",
   "theorems": [
    "MF.Epsilon.C97_no_overflow",
    "MF.Epsilon.C97_queue_size_irrelevant",
    "MF.Epsilon.C97_finds_matches",
    "MF.Epsilon.C97_room_needed",
    "MF.Epsilon.C97_order_needed"
   ],
   "note": "C97_room_needed and C97_order_needed show that the room and the time order are needed."
  },
  {
   "property": "C98",
   "status": "proved",
   "theorems": [
    "MF.Approx.C98_decided_within_four_windows",
    "MF.Approx.C98_rates",
    "MF.Approx.C98_sets_follow",
    "MF.Approx.C98_maximal",
    "MF.Approx.C98_undecided",
    "MF.Approx.C98_crossing",
    "MF.Approx.C98_room_needed"
   ],
   "note": "C98_crossing shows that crossing alone can exclude a possible set; C98_room_needed shows that the claim fails when a queue overflows."
  },
  {
   "property": "C99",
   "status": "proved",
   "theorems": [
    "MF.Approx.C99_no_overflow",
    "MF.Approx.C99_queue_size_irrelevant",
    "MF.Approx.C99_interleavings_agree",
    "MF.Approx.C99_density_needed",
    "MF.Approx.C99_room_needed"
   ],
   "note": "C99_density_needed and C99_room_needed show that each condition is needed."
  },
  {
   "property": "C100",
   "status": "proved",
   "theorems": [
    "MF.C100_approximate",
    "MF.C100_epsilon",
    "MF.C100_approximate_is_exact",
    "MF.C100_epsilon_is_exact",
    "MF.C100_python",
    "MF.C100_room_needed",
    "MF.C100_strict_needed",
    "MF.C100_headers_needed",
    "MF.C100_slop_two"
   ],
   "note": "C100_room_needed, C100_strict_needed, C100_headers_needed and C100_slop_two show that the conditions are needed."
  },
  {
   "property": "C101",
   "status": "proved",
   "theorems": [
    "MF.Py.C101_queue_size_irrelevant",
    "MF.Py.C101_finds_matches",
    "MF.Py.C101_room_needed",
    "MF.Py.C101_order_needed"
   ],
   "note": "C101_room_needed and C101_order_needed show that the conditions are needed. Unlike C97 the second part holds for any number of inputs."
  },
  {
   "property": "C102",
   "status": "proved",
   "theorems": [
    "MF.Aligner.C102_output",
    "MF.Aligner.C102_determined",
    "MF.Aligner.C102_held",
    "MF.Aligner.C102_start_needed",
    "MF.Aligner.C102_spacing_needed",
    "MF.Aligner.C102_alive_needed",
    "MF.Aligner.C102_period_needed"
   ],
   "note": "C102_start_needed, C102_spacing_needed, C102_alive_needed and C102_period_needed show that the conditions are needed."
  },
  {
   "property": "C103",
   "status": "proved",
   "theorems": [
    "MF.Sequencer.C103_output",
    "MF.Sequencer.C103_queue_size_irrelevant",
    "MF.Sequencer.C103_determined",
    "MF.Sequencer.C103_room_needed",
    "MF.Sequencer.C103_punctual_needed"
   ],
   "note": "C103_room_needed and C103_punctual_needed show that the conditions are needed. Messages with a std_msgs header never get through (C47)."
  },
  {
   "property": "C104",
   "status": "proved",
   "theorems": [
    "MF.C104_epsilon",
    "MF.C104_approximate",
    "MF.C104_python_approximate",
    "MF.C104_exact",
    "MF.C104_exact_common_trigger",
    "MF.C104_python_exact",
    "MF.C104_exact_delay_needed",
    "MF.C104_delay_needed"
   ],
   "note": "Times are integers (nanoseconds). C104_exact_delay_needed: with D = queue_size * p exact synchronization can lose every set. C104_delay_needed: the delay counts for the approximate policies as well; their bounds are not claimed to be the smallest ones."
  },
  {
   "property": "C105",
   "status": "proved",
   "theorems": [
    "MF.Pipeline.C105_behind_aligner",
    "MF.Pipeline.C105_aligner_exact",
    "MF.Pipeline.C105_behind_sequencer",
    "MF.Pipeline.C105_sequencer_cache",
    "MF.Pipeline.C105_sequencers_exact"
   ],
   "note": "The second filter does not call the first one back, and is connected before the first message. Extends C80-C83."
  },
  {
   "property": "C106",
   "status": "proved",
   "theorems": [
    "MF.Py.C106_queue_size_irrelevant",
    "MF.Py.C106_finds_matches",
    "MF.Py.C106_rates",
    "MF.Py.C106_weaker_than_C101",
    "MF.Py.C106_rates_sharp",
    "MF.Py.C106_late_needed"
   ],
   "note": "Strictly weaker condition than that of C101 (C106_weaker_than_C101). C106_rates_sharp: with D + slop - 1 = queue_size * p all matches can be lost. C106_late_needed: a message that is late by queue_size messages of its own input does not get a place."
  },
  {
   "property": "C107",
   "status": "proved",
   "theorems": [
    "MF.Epsilon.C107_queue_size_irrelevant",
    "MF.Epsilon.C107_finds_matches",
    "MF.Epsilon.C107_rates",
    "MF.Epsilon.C107_weaker_than_C97",
    "MF.Epsilon.C107_room_needed",
    "MF.Epsilon.C107_rates_sharp",
    "MF.Epsilon.C107_three_inputs",
    "MF.Epsilon.C107_order_needed"
   ],
   "note": "Strictly weaker condition than that of C97 (C107_weaker_than_C97). C107_three_inputs, C107_order_needed and C107_room_needed show that two inputs, time order and the room are needed."
  },
  {
   "property": "C108",
   "status": "proved",
   "theorems": [
    "MF.C108_matches_disjoint",
    "MF.Epsilon.C108_epsilon",
    "MF.Epsilon.C108_epsilon_interleaving",
    "MF.Epsilon.C108_epsilon_rates",
    "MF.Epsilon.C108_epsilon_distance_needed",
    "MF.Epsilon.C108_epsilon_room_needed",
    "MF.Py.C108_python",
    "MF.Py.C108_python_distance_needed",
    "MF.Approx.C108_approximate",
    "MF.Approx.C108_approximate_distance_needed",
    "MF.Approx.C108_agree",
    "MF.C108_python_rates",
    "MF.C108_approximate_rates"
   ],
   "note": "Unlike C26, C90 and C107 this covers missing messages with three or more inputs. C108_*_distance_needed and C108_epsilon_room_needed show that the conditions are needed."
  },
  {
   "property": "C109",
   "status": "proved",
   "theorems": [
    "MF.ApproxSpec.C109_unique",
    "MF.ApproxSpec.C109_exists",
    "MF.ApproxSpec.C109_contiguous_unlimited",
    "MF.Approx.C109_output",
    "MF.Approx.C109_every_set",
    "MF.Approx.C109_when",
    "MF.Approx.C109_two_contiguous",
    "MF.Approx.C109_tie",
    "MF.Approx.C109_room_needed"
   ],
   "note": "The description (Spec/ApproxChoice) mentions no pivot and no order of examination, unlike C32. C109_tie, C109_two_contiguous and C109_room_needed show what the parts of it mean."
  },
  {
   "property": "C110",
   "status": "proved",
   "theorems": [
    "MF.Epsilon.C110_place_by_place",
    "MF.Epsilon.C110_approximate_time_older",
    "MF.Epsilon.C110_is_pairing",
    "MF.Epsilon.C110_maximum",
    "MF.Epsilon.C110_against_other_queue_sizes",
    "MF.Epsilon.C110_against_approximate_time",
    "MF.Epsilon.C110_against_python",
    "MF.Epsilon.C110_room_needed",
    "MF.Epsilon.C110_strict",
    "MF.Epsilon.C110_no_share",
    "MF.Epsilon.C110_three_inputs",
    "MF.Py.C110_python_share",
    "MF.Py.C110_share_sharp"
   ],
   "note": "Pairing and Grouping (Spec/Pairing) do not mention the synchronizers. C110_room_needed, C110_strict, C110_no_share, C110_share_sharp and C110_three_inputs show that the conditions and bounds cannot be dropped. Place by place: C110_place_by_place, C110_approximate_time_older."
  },
  {
   "property": "C111",
   "status": "proved",
   "theorems": [
    "MF.ApproxSpec.C111_skips_only_older",
    "MF.ApproxSpec.C111_skips_nothing",
    "MF.Approx.C111_goes_on",
    "MF.Approx.C111_until_next_loss",
    "MF.Approx.C111_ordered",
    "MF.Approx.C111_starvation"
   ],
   "note": "The state at the loss is that of a synchronizer with room for one more message (roomier). resume (Spec/Recover) says what is passed over; C111_skips_only_older and C111_skips_nothing describe it without recursion. C111_until_next_loss joins consecutive losses."
  },
  {
   "property": "C112",
   "status": "proved",
   "theorems": [
    "MF.Epsilon.C112_epsilon",
    "MF.Epsilon.C112_epsilon_density_needed",
    "MF.Epsilon.C112_epsilon_three_inputs",
    "MF.Epsilon.C112_epsilon_sparse",
    "MF.Pipeline.C112_aligner_epsilon",
    "MF.Pipeline.C112_aligner_sparse",
    "MF.Py.C112_python",
    "MF.Py.C112_python_sparse",
    "MF.Approx.C112_approximate_no_queue_size",
    "MF.Approx.C112_approximate_pauses"
   ],
   "note": "Time order and density imply the recency conditions of C106 and C107. C112_epsilon_density_needed and C112_epsilon_three_inputs delimit the result; C112_approximate_no_queue_size is the negative result for ApproximateTime, for every queue size."
  },
  {
   "property": "C113",
   "status": "proved",
   "theorems": [
    "MF.Traits.C113_stamp",
    "MF.ExactTime.C113_exact",
    "MF.ExactTime.C113_exact_mixed",
    "MF.Epsilon.C113_epsilon",
    "MF.Epsilon.C113_epsilon_mixed",
    "MF.Approx.C113_approximate",
    "MF.Cache.C113_cache",
    "MF.Sequencer.C113_sequencer",
    "MF.Aligner.C113_aligner_starves",
    "MF.Aligner.C113_aligner_passes",
    "MF.Latest.C113_latest"
   ],
   "note": "One theorem per filter, each for all histories of messages without header. C113_aligner_starves shows that an InputAligner is of no use for such messages unless periods are set."
  },
  {
   "property": "C114",
   "status": "proved",
   "theorems": [
    "MF.C114_exact",
    "MF.C114_epsilon",
    "MF.C114_epsilon_queue_needed",
    "MF.C114_approximate",
    "MF.C114_python_exact",
    "MF.C114_python_approximate",
    "MF.C114_python_slop_needed",
    "MF.Latest.C114_latest_stale"
   ],
   "note": "One theorem per synchronizer. C114_latest_stale describes the whole output of LatestTime for a periodic source."
  },
  {
   "property": "C115",
   "status": "proved",
   "theorems": [
    "MF.C115_epsilon_waits",
    "MF.C115_epsilon",
    "MF.C115_epsilon_stored_needed",
    "MF.C115_approximate_waits",
    "MF.C115_approximate",
    "MF.C115_approximate_one_more_needed",
    "MF.C115_exact",
    "MF.C115_exact_stamps_needed",
    "MF.C115_python_exact",
    "MF.C115_python_approximate"
   ],
   "note": "C115_approximate_one_more_needed, C115_epsilon_stored_needed and C115_exact_stamps_needed show that the conditions cannot be dropped. LatestTime with input 0 silent at the start is C36, InputAligner C42."
  },
  {
   "property": "C116",
   "status": "partial",
   "theorems": [
    "MF.Latest.C116_periodic_partial",
    "MF.Latest.C116_never_late_iff",
    "MF.Latest.C116_takes_over_partial",
    "MF.Latest.C116_silent_forever",
    "MF.Latest.C116_two_messages_block",
    "MF.Latest.C116_uneven_start_blocks",
    "MF.Latest.C116_step_change_blocks"
   ],
   "note": "False as stated. C116_never_late_iff: an input that has stopped never gives way exactly if it has a rate but no error estimate, or margin factor times error is at least the rate. C116_silent_forever: then nothing is output as long as the other inputs are slower. Such states are reached after exactly two messages (C116_two_messages_block), after three messages with the second interval shorter by a tenth or more with the default margin (C116_uneven_start_blocks), and after a deviation from a constant period (C116_step_change_blocks). What holds: C116_takes_over_partial for all other inputs, with the time after which they give way, and C116_periodic_partial, the exact output for periodic inputs that may stop."
  },
  {
   "property": "C117",
   "status": "proved",
   "theorems": [
    "MF.Aligner.C117_held_less_than_timeout",
    "MF.Aligner.C117_output_in_time",
    "MF.Aligner.C117_queue_bound",
    "MF.Aligner.C117_time_does_not_release",
    "MF.Aligner.C117_can_hold_for_ever"
   ],
   "note": "C117_can_hold_for_ever: the class comment says that an input without messages will time out; it does so only when newer messages arrive, so if all inputs stop the last messages are held for ever even with a running dispatch timer."
  },
  {
   "property": "C118",
   "status": "proved",
   "theorems": [
    "MF.Pipeline.C118_cache_in_order",
    "MF.Pipeline.C118_order_needed",
    "MF.Pipeline.C118_strict_needed",
    "MF.Pipeline.C118_oldest_needed",
    "MF.Pipeline.C118_neighbours_in_order",
    "MF.Pipeline.C118_behind_sequencer",
    "MF.Pipeline.C118_aligner_returns",
    "MF.Pipeline.C118_behind_aligner",
    "MF.Pipeline.C118_neighbours_behind_aligner",
    "MF.Pipeline.C118_aligner_end_to_end"
   ],
   "note": "C118_order_needed, C118_strict_needed and C118_oldest_needed: each condition is necessary."
  },
  {
   "property": "C119",
   "status": "proved",
   "theorems": [
    "MF.Pipeline.C119_epsilon_returns",
    "MF.Pipeline.C119_approximate_returns",
    "MF.Pipeline.C119_epsilon_finds_matches",
    "MF.Pipeline.C119_epsilon_end_to_end",
    "MF.Pipeline.C119_approximate_canonical",
    "MF.Pipeline.C119_approximate_end_to_end",
    "MF.Pipeline.C119_approximate_order_irrelevant",
    "MF.Pipeline.C119_order_needed"
   ],
   "note": "C119_order_needed: without the sequencers the same messages are combined differently by both policies."
  },
  {
   "property": "C120",
   "status": "proved",
   "theorems": [
    "MF.Chain.C120_only_behind_source",
    "MF.Chain.C120_passes_source",
    "MF.Chain.C120_add_ignored"
   ],
   "note": "The filters must be distinct objects (C12_same_filter_twice)."
  },
  {
   "property": "C121",
   "status": "proved",
   "theorems": [
    "MF.C121_approximate",
    "MF.C121_epsilon",
    "MF.C121_exact",
    "MF.C121_cache",
    "MF.C121_python_time",
    "MF.C121_python_approximate",
    "MF.C121_order_not_enough"
   ],
   "note": "Stamps are unbounded integers here; C56 treats 64 bit overflow. ApproximateEpsilonTime needs stamps below the largest 64 bit integer, which every stamp with 32 bit seconds is."
  },
  {
   "property": "C122",
   "status": "proved",
   "theorems": [
    "MF.C122_exact",
    "MF.C122_epsilon",
    "MF.C122_python_time",
    "MF.C122_approximate",
    "MF.C122_approximate_two",
    "MF.C122_approximate_ahead",
    "MF.C122_python_approximate_depends"
   ],
   "note": "C122_exact, C122_epsilon (epsilon not negative), C122_python_time: every history, faults included. C122_approximate: the outputs are prefixes of each other; C122_approximate_two: equal, for two inputs. C122_approximate_ahead and C122_python_approximate_depends show the exceptions named in the statement."
  },
  {
   "property": "C123",
   "status": "proved",
   "theorems": [
    "MF.C123_exact",
    "MF.C123_epsilon",
    "MF.C123_python_time",
    "MF.C123_python_approximate",
    "MF.C123_approximate_differs",
    "MF.C123_approximate"
   ],
   "note": "C123_exact, C123_epsilon (epsilon not negative, 64-bit stamps), C123_python_time, C123_python_approximate. C123_approximate is the conditional statement for ApproximateTime; C123_approximate_differs a history of in-order messages whose three sets become two others."
  },
  {
   "property": "C124",
   "status": "proved",
   "theorems": [
    "MF.C124_exact",
    "MF.C124_exact_order_needed",
    "MF.C124_python_time",
    "MF.C124_epsilon_two",
    "MF.C124_epsilon_three_fails",
    "MF.C124_approximate_fails",
    "MF.C124_python_approximate_fails"
   ],
   "note": "C124_exact, C124_python_time, C124_epsilon_two; C124_exact_order_needed, C124_epsilon_three_fails, C124_approximate_fails and C124_python_approximate_fails are concrete histories for the exceptions named in the statement."
  },
  {
   "property": "C125",
   "status": "proved",
   "theorems": [
    "MF.Epsilon.C125_epsilon_two_older",
    "MF.C125_exact",
    "MF.C125_exact_unlimited",
    "MF.C125_exact_may_gain",
    "MF.C125_python_time",
    "MF.C125_epsilon_two",
    "MF.C125_epsilon_apart",
    "MF.C125_approximate_apart",
    "MF.C125_python_approximate_fails",
    "MF.Epsilon.C125_epsilon_two_no_gain"
   ],
   "note": "C125_exact, C125_exact_unlimited, C125_python_time, C125_epsilon_two, C125_epsilon_two_no_gain, C125_epsilon_two_older, C125_epsilon_apart, C125_approximate_apart. C125_exact_may_gain: with a limited queue a loss can make room for another set. C125_python_approximate_fails is the exception named in the statement."
  },
  {
   "property": "C126",
   "status": "proved",
   "theorems": [
    "MF.ExactTime.C126_common_stamps",
    "MF.ExactTime.C126_order_needed",
    "MF.ExactTime.C126_at_most",
    "MF.ExactTime.C126_exactly_once",
    "MF.Py.C126_python_common_stamps",
    "MF.Pipeline.C126_behind_aligner",
    "MF.Pipeline.C126_aligner_end_to_end",
    "MF.Pipeline.C126_aligner_due",
    "MF.Pipeline.C126_behind_sequencers"
   ],
   "note": "C126_common_stamps, C126_exactly_once, C126_at_most, C126_python_common_stamps. C126_order_needed: out of order ExactTime can miss a stamp that all inputs deliver. C19 is the case without repetition. C126_behind_aligner, C126_aligner_end_to_end, C126_aligner_due, C126_behind_sequencers: behind filters that restore the time order."
  },
  {
   "property": "C127",
   "status": "proved",
   "theorems": [
    "MF.PyCache.C127_interval",
    "MF.PyCache.C127_after",
    "MF.PyCache.C127_before",
    "MF.PyCache.C127_order_needed",
    "MF.PyCache.C127_newer_needed",
    "MF.PyCache.C127_oldest_needed"
   ],
   "note": "C127_interval, C127_after, C127_before. C127_order_needed, C127_newer_needed and C127_oldest_needed show that none of the conditions can be left out. The C++ counterpart, where the neighbours are strictly after and before, is C118."
  },
  {
   "property": "C128",
   "status": "proved",
   "theorems": [
    "MF.Approx.C128_approximate_older",
    "MF.Approx.C128_approximate_never_fewer",
    "MF.Epsilon.C128_epsilon_two_older",
    "MF.Epsilon.C128_epsilon_apart",
    "MF.Epsilon.C128_epsilon_two",
    "MF.Epsilon.C128_epsilon_two_other",
    "MF.Epsilon.C128_epsilon_three_fewer",
    "MF.Py.C128_python_apart",
    "MF.Py.C128_python_three_fewer",
    "MF.Py.C128_python_two_fewer",
    "MF.Approx.C128_approximate_apart",
    "MF.Approx.C128_approximate_other"
   ],
   "note": "C128_epsilon_apart, C128_python_apart, C128_approximate_apart, C128_epsilon_two, C128_epsilon_two_older, C128_approximate_older, C128_approximate_never_fewer. The negative part is proved by histories: C128_epsilon_two_other, C128_approximate_other (other sets), C128_epsilon_three_fewer, C128_python_three_fewer (in time order), C128_python_two_fewer (two inputs not in time order)."
  },
  {
   "property": "C129",
   "status": "proved",
   "theorems": [
    "MF.Cache.C129_cache",
    "MF.Cache.C129_cache_resized",
    "MF.PyCache.C129_python_cache",
    "MF.Epsilon.C129_epsilon_three_fewer",
    "MF.Epsilon.C129_epsilon_two_other",
    "MF.Py.C129_python_other",
    "MF.Approx.C129_approximate_other",
    "MF.Sequencer.C129_sequencer",
    "MF.Sequencer.C129_sequencer_distinct_needed",
    "MF.Sequencer.C129_sequencer_steady_needed"
   ],
   "note": "C129_cache, C129_python_cache, C129_sequencer. C129_cache_resized, C129_sequencer_distinct_needed and C129_sequencer_steady_needed show that the conditions cannot be left out. The negative part is proved by histories in time order: C129_epsilon_three_fewer, C129_epsilon_two_other, C129_python_other, C129_approximate_other. For the exact synchronizers a larger queue only adds sets (C95_larger_queue, C96_larger_queue)."
  },
  {
   "property": "C130",
   "status": "proved",
   "theorems": [
    "MF.PyCache.C130_agree",
    "MF.PyCache.C130_neighbours_differ",
    "MF.PyCache.C130_empty_differ",
    "MF.PyCache.C130_reversed_differ",
    "MF.PyCache.C130_order_needed"
   ],
   "note": "C130_agree. The differences are C130_neighbours_differ, C130_empty_differ, C130_reversed_differ and C130_order_needed."
  },
  {
   "property": "C131",
   "status": "proved",
   "theorems": [
    "MF.Sequencer.C131_fewer_timer_calls",
    "MF.Sequencer.C131_output_in_the_end",
    "MF.Sequencer.C131_unlimited_needed_delay",
    "MF.Sequencer.C131_unlimited_needed",
    "MF.Sequencer.C131_steady_needed"
   ],
   "note": "C131_fewer_timer_calls, C131_output_in_the_end. C131_unlimited_needed, C131_unlimited_needed_delay and C131_steady_needed show that the conditions cannot be left out. The update rate itself only determines when the timer fires (rclcpp, trusted)."
  },
  {
   "property": "C132",
   "status": "proved",
   "theorems": [
    "MF.Approx.C132_age_penalty",
    "MF.Approx.C132_older_and_wider",
    "MF.Approx.C132_older",
    "MF.Approx.C132_never_fewer",
    "MF.Approx.C132_more_sets",
    "MF.Approx.C132_no_penalty",
    "MF.Approx.C132_large_penalty"
   ],
   "note": "C132_age_penalty, C132_older, C132_never_fewer, C132_no_penalty, C132_large_penalty. C132_older_and_wider and C132_more_sets show that the penalty can matter. The penalty is a fraction with exact arithmetic, as in C109."
  },
  {
   "property": "C133",
   "status": "proved",
   "theorems": [
    "MF.Approx.C133_no_gap",
    "MF.Approx.C133_first_set",
    "MF.Approx.C133_used_before"
   ],
   "note": "C133_no_gap, C133_first_set. C133_used_before shows that the exception for messages used before is needed."
  },
  {
   "property": "C134",
   "status": "proved",
   "theorems": [
    "MF.Approx.C134_older",
    "MF.Approx.C134_never_fewer",
    "MF.Approx.C134_later_message_fewer"
   ],
   "note": "C134_older, C134_never_fewer. C134_later_message_fewer: an additional message that is not at the beginning can mean fewer sets."
  }
 ]
}