{
 "C03": {
  "status": "partial",
  "note": "Documented claim is false for out-of-order input (C03_most_recent_fails_out_of_order); proved for in-order input, plus 'newest stamp is kept' for arbitrary input and sizes >= 2."
 },
 "C20": {
  "status": "partial",
  "note": "False for out-of-order inputs (C20_out_of_order_output); proved for in-order inputs, strict and non-strict."
 },
 "C24": {
  "status": "partial",
  "note": "Proved for every epsilon >= 0; false for negative epsilon with two or more inputs, where add never returns (C24_negative_epsilon_hangs)."
 },
 "C26": {
  "status": "partial",
  "note": "False for three or more inputs with epsilon > 0 (C26_misses_matching_set); proved for two inputs, for epsilon 0 and for identical stamps."
 },
 "C46": {
  "status": "partial",
  "note": "Bound, no drop before full and the exact overflow behaviour proved; 'exactly one message is dropped' is false for equal stamps (C46_equal_stamps_dropped_together) and proved for different stamps."
 },
 "C47": {
  "status": "partial",
  "note": "False: C47_header_message_throws and C47_header_messages_never_output prove the negation for header-stamped messages; proved for system-time stamps only."
 },
 "C10": {
  "status": "partial",
  "note": "False for events constructed with nonconst_need_copy=false (C10_violated: signal9.hpp computes the forced-copy events and does not use them); proved for events that require copying and for callbacks without mutable parameters."
 },
 "C36": {
  "status": "partial",
  "note": "False (C36_out_of_bounds, C36_wrong_rate); the exact condition for safety is C36_safe_iff, the exact content of the rate table is C36_rate_slots, and the property is proved for inputs that first arrive in index order."
 },
 "C13": {
  "status": "partial",
  "note": "False for Cache (C13_cache_violated; exact behaviour C13_cache); proved for every other filter kind over all histories."
 },
 "C14": {
  "status": "partial",
  "note": "False for PassThrough, Chain and a reconnected Cache (C14_violated); C14_output_safe_iff is the exact condition, C14_safe_partial the positive part."
 },
 "C48": {
  "status": "partial",
  "note": "At most one subscription and which one: proved for all histories (C48_current). 'Only its messages are output' is proved for users who keep no pointer from getSubscriber(), and false otherwise (C48_copied_subscription_violates)."
 },
 "C49": {
  "status": "partial",
  "note": "C49_exact gives the exact behaviour for all histories; the property fails after an empty topic with shared node and options and after a throwing subscribe (C49_wrong_node), and the node may dangle (C49_shared_node_dangles; exact condition C49_safe_iff)."
 },
 "C38": {
  "status": "partial",
  "note": "Proved for ApproximateTime and ApproximateEpsilonTime. False for ExactTime drop callbacks (C38_exact_violated) and LatestTime rate configuration (C38_latest_violated); what is lost is characterised exactly by C38_exact_forgets_drop_callbacks and C38_latest_forgets_rate_config. Callbacks registered on the synchronizer get every dropped set (C38_exact_every_drop)."
 },
 "C60": {
  "status": "partial",
  "note": "Proved for ExactTime and, once every input has delivered, LatestTime. False for ApproximateTime holding a candidate (C60_approximate_violated: a set of null messages is output) and for ApproximateEpsilonTime with waiting messages (C60_epsilon_dead: never outputs again)."
 },
 "C55": {
  "status": "partial",
  "note": "Proved for every component. The bound on buffered messages is false as stated and is proved in the weaker form that holds: queue_size plus one per exception (ApproximateEpsilonTime, ApproximateTime); ExactTime exceeds queue_size when a drop callback throws. Other findings: TimeSequencer loses the remaining due messages; ExactTime may drop a complete set; ApproximateTime stalls after an exception until a queue overflows (C55_approx_stalls), but no assertion ever fails."
 },
 "C56": {
  "status": "proved",
  "note": "Proved as equality of whole histories: the filters with checked 64-bit arithmetic do what the unbounded models do, for header stamps, durations up to the default maximum and age penalties up to 1. ExactTime, Cache and LatestTime make no sums of stamps. Findings outside these bounds: age penalty 9 with one unset stamp makes ApproximateTime throw; epsilon INT64_MAX makes ApproximateEpsilonTime throw."
 },
 "C66": {
  "status": "partial",
  "note": "False as stated: after any call that raised, every later call blocks forever (C66_exception_blocks_forever, with concrete cases). Proved: which calls raise (C66_raises_iff), and that without exceptions every call returns."
 },
 "C70": {
  "status": "partial",
  "note": "What is held, passed on and returned by getInterval is proved for every history. getElemAfterTime/getElemBeforeTime return the first/last ARRIVED match for every history; that this is the oldest/newest in time is false for out-of-order input (C70_violated_out_of_order) and proved for in-order input. getLast is false for equal times (C70_getLast_violated_equal_times); one stamp of another clock type makes queries raise (C70_mixed_clocks)."
 },
 "C71": {
  "status": "partial",
  "note": "Proved: no call fails, the bound, and passing on exactly once. False: messages paired with their own times (C71_pairing_violated), and holding cache_size messages (C71_over_eviction_violated); at most W-1 too many are evicted with W threads."
 },
 "C72": {
  "status": "partial",
  "note": "Proved for callbacks that neither raise nor register on the calling filter. A raising callback keeps the message from those after it (C72_raising_callback); registering inside a callback raises RuntimeError (C72_registering_inside_callback)."
 },
 "C73": {
  "status": "partial",
  "note": "Proved except for one window: two messages that arrive between the creation of the lock and the slop disable an ApproximateTimeSynchronizer forever (C73_construction_violated)."
 },
 "C74": {
  "status": "partial",
  "note": "Proved for output callbacks, and for drop callbacks that take const pointers or const events; the exact condition is C74_safe_iff. False for other drop callbacks: every dropped set has a missing message, and C74_drop_callbacks_fault gives the fault."
 },
 "C76": {
  "status": "partial",
  "note": "False as stated: the operators also assign the parent pointer, so a stand-alone policy makes every message fail an assertion (C76_standalone_policy_asserts) and another synchronizer's policy sends the sets there (C76_outputs_go_to_other). With init() called afterwards it holds for ExactTime and LatestTime up to drop callbacks / rate configuration, for ApproximateTime if the assigned policy holds no candidate, for ApproximateEpsilonTime exactly if the numbers of inputs with waiting messages agree."
 },
 "C77": {
  "status": "partial",
  "note": "False as stated. Once every input has delivered, nothing is output under a clock of another type, however long (C77_other_clock_silent); after the clock is set back nothing is output until it has caught up (C77_set_back_silent); in both cases rates and latest messages are kept exactly. If the clock type changes before every input has delivered, a message can throw (C77_mixed_clocks_throw), and only then (C77_throws_only_if_mixed)."
 },
 "C78": {
  "status": "partial",
  "note": "Holds for ExactTime (C78_exact_*) and InputAligner (C78_aligner*). False for a full Cache, which loses its oldest message to the refused one (C78_cache_add_partial gives the exact effect, C78_cache_loses_message the witness), for ApproximateEpsilonTime, which keeps the message, throws from then on at every call and lets its queues grow without bound (C78_epsilon_dead, C78_epsilon_bound_violated), and for ApproximateTime, which keeps it (C78_approx_two_clocks_partial), may never output again (C78_approx_dead) and then exceeds its queue size (C78_approx_bound_violated). No set mixes clock types in any of them, for every history (C78_approx_one_clock for ApproximateTime)."
 },
 "C84": {
  "status": "partial",
  "note": "True for Synchronizer, TimeSynchronizer, InputAligner without timer and a Cache connected once (C84_safe, C84_nothing_runs_afterwards, C84_destructor_waits, C84_can_finish). False for TimeSequencer and InputAligner with a timer, whose destructors do not wait for the timer callback (C84_timer_violated; C84_timer_partial and C84_timer_race give the condition), and for PassThrough, Chain and a Cache connected twice (C84_not_detaching_violated). A filter destroyed by its own callback never comes back from the destructor (C84_destructor_waits)."
 },
 "C87": {
  "status": "proved",
  "note": "True as stated (C87_fixed_callbacks, C87_one_registrar, C87_returned_complete). The unrestricted claim, that every registered callback gets every later message, is false: two concurrent registrations can get the same id and one is lost (C87_registration_lost), and a registration during an output makes the output raise RuntimeError, exactly if it changes the number of callbacks (C87_raises_iff), so that callbacks registered before miss the message (C87_output_cut_short), or after all have been called (C87_raises_at_the_end). Inside a synchronizer such an exception leaves the lock taken (C86, C66)."
 },
 "C88": {
  "status": "partial",
  "note": "True for ApproximateTime (C88_approximate_forgets, C88_approximate_recovers: later sets use new messages only, and are optimal as in C32; in between, sets may mix old and new messages, C88_approximate_mixed) and for ApproximateEpsilonTime (C88_epsilon_forgets; C88_epsilon_memoryless says more). False for the others, and what happens instead is proved: ExactTime works with a queue that is shorter by the number of sets left over (C88_exact_smaller_queue_partial) and outputs nothing at all if these fill the queue (C88_exact_blocked); InputAligner and TimeSequencer ignore everything older than the last output (C88_aligner_ignores_restart, C88_sequencer_ignores_restart); a Cache keeps the old messages and uses the remaining places, one place if it was full (C88_cache_smaller_partial, C88_cache_one_place); the Python synchronizers output nothing if one queue is full of old messages (C88_py_exact_blocked, C88_py_approximate_blocked)."
 },
 "C89": {
  "status": "partial",
  "note": "'Never earlier' holds for any number of inputs (C89_output_is_determined). With two inputs 'never later' holds too, so that output and determined sets are the same (C89_two_inputs_exact). Larger bounds only help, for any number of inputs (C89_larger_bounds_never_delay, with C89_larger_bounds_only_help for two), as long as the inputs respect them (C89_bounds_must_hold). With three or more inputs it is false: a set can be determined by a message on an input that still has messages to look at, and is then withheld (C89_may_be_withheld). What holds: after a message on an exhausted input exactly the determined sets were output (C89_exact_partial), and a withheld set comes out with the next message on a certain input (C89_next_arrival_partial)."
 },
 "C90": {
  "status": "proved",
  "note": "ApproximateTime: span at most w <= max interval, rounds at least w apart, queue size above the lag (C90_approx_rounds); neither margin can be reduced (C90_approx_gap_needed, C90_approx_queue_needed). ApproximateEpsilonTime: span at most epsilon, queue size at least the lag, distance of rounds irrelevant. ExactTime: equal stamps, unlimited queue or queue size at least the lag; no drop. Python: span less than the slop (C90_python_span_needed), rounds at least the slop apart, queue size at least the lag and not zero."
 },
 "C91": {
  "status": "partial",
  "note": "'Only if' holds (C91_no_false_alarm, C91_printed). 'If' is false (C91_may_be_missed): a violation is noticed exactly if the message before still waits in its queue (C91_noticed_iff), so nothing is missed as long as some input has not sent anything (C91_complete_while_waiting_partial), but afterwards violations can go unnoticed. 'Once' holds per process and text, not per synchronizer: of two synchronizers of the same type only one prints (C91_printed, C91_second_synchronizer_silent)."
 },
 "C92": {
  "status": "partial",
  "note": "'Takes the same arguments' is false: the constructor succeeds exactly with three positional arguments and everything else by keyword (C92_constructs_iff_partial); in particular the quality of service cannot be given by position as in rclpy, and the topic not by keyword (C92_positional_qos_rejected). The rest holds: the settings (C92_subscription), forwarding (C92_forwards), attributes (C92_attributes; on an object without a subscription every lookup that falls through ends in RecursionError)."
 },
 "C93": {
  "status": "partial",
  "note": "True without exceptions (C93_all_return_partial). An exception leaves taken the locks of all synchronizers in its traceback, and no others (C93_exception_disables_traceback), forever (C93_disabled_forever); this is the only cause of blocking (C93_cause_of_blocking). So an exception in one synchronizer disables those upstream of it too (C93_exception_spreads_upstream). With feedback threads block without exception (C93_feedback_blocks, C93_mutual_feedback_deadlock)."
 },
 "C94": {
  "status": "proved",
  "note": "C94_interval_needed, C94_silent_input and C94_room_needed show that the conditions cannot be dropped. The factor 5 is sufficient; it is not shown to be the least."
 },
 "C95": {
  "status": "proved",
  "note": "C95_order_needed shows that inputs in stamp order are needed."
 },
 "C96": {
  "status": "proved",
  "note": "C96_order_needed shows that inputs in stamp order are needed; C96_three_inputs_differ is the difference to C++."
 },
 "C97": {
  "status": "proved",
  "note": "C97_room_needed and C97_order_needed show that the room and the time order are needed."
 },
 "C98": {
  "status": "proved",
  "note": "C98_crossing shows that crossing alone can exclude a possible set; C98_room_needed shows that the claim fails when a queue overflows."
 },
 "C99": {
  "status": "proved",
  "note": "C99_density_needed and C99_room_needed show that each condition is needed."
 },
 "C100": {
  "status": "proved",
  "note": "C100_room_needed, C100_strict_needed, C100_headers_needed and C100_slop_two show that the conditions are needed."
 },
 "C101": {
  "status": "proved",
  "note": "C101_room_needed and C101_order_needed show that the conditions are needed. Unlike C97 the second part holds for any number of inputs."
 },
 "C102": {
  "status": "proved",
  "note": "C102_start_needed, C102_spacing_needed, C102_alive_needed and C102_period_needed show that the conditions are needed."
 },
 "C103": {
  "status": "proved",
  "note": "C103_room_needed and C103_punctual_needed show that the conditions are needed. Messages with a std_msgs header never get through (C47)."
 },
 "C104": {
  "status": "proved",
  "note": "Times are integers (nanoseconds). C104_exact_delay_needed: with D = queue_size * p exact synchronization can lose every set. C104_delay_needed: the delay counts for the approximate policies as well; their bounds are not claimed to be the smallest ones."
 },
 "C105": {
  "status": "proved",
  "note": "The second filter does not call the first one back, and is connected before the first message. Extends C80-C83."
 },
 "C106": {
  "status": "proved",
  "note": "Strictly weaker condition than that of C101 (C106_weaker_than_C101). C106_rates_sharp: with D + slop - 1 = queue_size * p all matches can be lost. C106_late_needed: a message that is late by queue_size messages of its own input does not get a place."
 },
 "C107": {
  "status": "proved",
  "note": "Strictly weaker condition than that of C97 (C107_weaker_than_C97). C107_three_inputs, C107_order_needed and C107_room_needed show that two inputs, time order and the room are needed."
 },
 "C108": {
  "status": "proved",
  "note": "Unlike C26, C90 and C107 this covers missing messages with three or more inputs. C108_*_distance_needed and C108_epsilon_room_needed show that the conditions are needed."
 },
 "C109": {
  "status": "proved",
  "note": "The description (Spec/ApproxChoice) mentions no pivot and no order of examination, unlike C32. C109_tie, C109_two_contiguous and C109_room_needed show what the parts of it mean."
 },
 "C110": {
  "status": "proved",
  "note": "Pairing and Grouping (Spec/Pairing) do not mention the synchronizers. C110_room_needed, C110_strict, C110_no_share, C110_share_sharp and C110_three_inputs show that the conditions and bounds cannot be dropped. Place by place: C110_place_by_place, C110_approximate_time_older."
 },
 "C111": {
  "status": "proved",
  "note": "The state at the loss is that of a synchronizer with room for one more message (roomier). resume (Spec/Recover) says what is passed over; C111_skips_only_older and C111_skips_nothing describe it without recursion. C111_until_next_loss joins consecutive losses."
 },
 "C112": {
  "status": "proved",
  "note": "Time order and density imply the recency conditions of C106 and C107. C112_epsilon_density_needed and C112_epsilon_three_inputs delimit the result; C112_approximate_no_queue_size is the negative result for ApproximateTime, for every queue size."
 },
 "C113": {
  "status": "proved",
  "note": "One theorem per filter, each for all histories of messages without header. C113_aligner_starves shows that an InputAligner is of no use for such messages unless periods are set."
 },
 "C114": {
  "status": "proved",
  "note": "One theorem per synchronizer. C114_latest_stale describes the whole output of LatestTime for a periodic source."
 },
 "C115": {
  "status": "proved",
  "note": "C115_approximate_one_more_needed, C115_epsilon_stored_needed and C115_exact_stamps_needed show that the conditions cannot be dropped. LatestTime with input 0 silent at the start is C36, InputAligner C42."
 },
 "C116": {
  "status": "partial",
  "note": "False as stated. C116_never_late_iff: an input that has stopped never gives way exactly if it has a rate but no error estimate, or margin factor times error is at least the rate. C116_silent_forever: then nothing is output as long as the other inputs are slower. Such states are reached after exactly two messages (C116_two_messages_block), after three messages with the second interval shorter by a tenth or more with the default margin (C116_uneven_start_blocks), and after a deviation from a constant period (C116_step_change_blocks). What holds: C116_takes_over_partial for all other inputs, with the time after which they give way, and C116_periodic_partial, the exact output for periodic inputs that may stop."
 },
 "C117": {
  "status": "proved",
  "note": "C117_can_hold_for_ever: the class comment says that an input without messages will time out; it does so only when newer messages arrive, so if all inputs stop the last messages are held for ever even with a running dispatch timer."
 },
 "C118": {
  "status": "proved",
  "note": "C118_order_needed, C118_strict_needed and C118_oldest_needed: each condition is necessary."
 },
 "C119": {
  "status": "proved",
  "note": "C119_order_needed: without the sequencers the same messages are combined differently by both policies."
 },
 "C120": {
  "status": "proved",
  "note": "The filters must be distinct objects (C12_same_filter_twice)."
 },
 "C121": {
  "status": "proved",
  "note": "Stamps are unbounded integers here; C56 treats 64 bit overflow. ApproximateEpsilonTime needs stamps below the largest 64 bit integer, which every stamp with 32 bit seconds is."
 },
 "C122": {
  "status": "proved",
  "note": "C122_exact, C122_epsilon (epsilon not negative), C122_python_time: every history, faults included. C122_approximate: the outputs are prefixes of each other; C122_approximate_two: equal, for two inputs. C122_approximate_ahead and C122_python_approximate_depends show the exceptions named in the statement."
 },
 "C123": {
  "status": "proved",
  "note": "C123_exact, C123_epsilon (epsilon not negative, 64-bit stamps), C123_python_time, C123_python_approximate. C123_approximate is the conditional statement for ApproximateTime; C123_approximate_differs a history of in-order messages whose three sets become two others."
 },
 "C124": {
  "status": "proved",
  "note": "C124_exact, C124_python_time, C124_epsilon_two; C124_exact_order_needed, C124_epsilon_three_fails, C124_approximate_fails and C124_python_approximate_fails are concrete histories for the exceptions named in the statement."
 },
 "C125": {
  "status": "proved",
  "note": "C125_exact, C125_exact_unlimited, C125_python_time, C125_epsilon_two, C125_epsilon_two_no_gain, C125_epsilon_two_older, C125_epsilon_apart, C125_approximate_apart. C125_exact_may_gain: with a limited queue a loss can make room for another set. C125_python_approximate_fails is the exception named in the statement."
 },
 "C126": {
  "status": "proved",
  "note": "C126_common_stamps, C126_exactly_once, C126_at_most, C126_python_common_stamps. C126_order_needed: out of order ExactTime can miss a stamp that all inputs deliver. C19 is the case without repetition. C126_behind_aligner, C126_aligner_end_to_end, C126_aligner_due, C126_behind_sequencers: behind filters that restore the time order."
 },
 "C127": {
  "status": "proved",
  "note": "C127_interval, C127_after, C127_before. C127_order_needed, C127_newer_needed and C127_oldest_needed show that none of the conditions can be left out. The C++ counterpart, where the neighbours are strictly after and before, is C118."
 },
 "C128": {
  "status": "proved",
  "note": "C128_epsilon_apart, C128_python_apart, C128_approximate_apart, C128_epsilon_two, C128_epsilon_two_older, C128_approximate_older, C128_approximate_never_fewer. The negative part is proved by histories: C128_epsilon_two_other, C128_approximate_other (other sets), C128_epsilon_three_fewer, C128_python_three_fewer (in time order), C128_python_two_fewer (two inputs not in time order)."
 },
 "C129": {
  "status": "proved",
  "note": "C129_cache, C129_python_cache, C129_sequencer. C129_cache_resized, C129_sequencer_distinct_needed and C129_sequencer_steady_needed show that the conditions cannot be left out. The negative part is proved by histories in time order: C129_epsilon_three_fewer, C129_epsilon_two_other, C129_python_other, C129_approximate_other. For the exact synchronizers a larger queue only adds sets (C95_larger_queue, C96_larger_queue)."
 },
 "C130": {
  "status": "proved",
  "note": "C130_agree. The differences are C130_neighbours_differ, C130_empty_differ, C130_reversed_differ and C130_order_needed."
 },
 "C131": {
  "status": "proved",
  "note": "C131_fewer_timer_calls, C131_output_in_the_end. C131_unlimited_needed, C131_unlimited_needed_delay and C131_steady_needed show that the conditions cannot be left out. The update rate itself only determines when the timer fires (rclcpp, trusted)."
 },
 "C132": {
  "status": "proved",
  "note": "C132_age_penalty, C132_older, C132_never_fewer, C132_no_penalty, C132_large_penalty. C132_older_and_wider and C132_more_sets show that the penalty can matter. The penalty is a fraction with exact arithmetic, as in C109."
 },
 "C133": {
  "status": "proved",
  "note": "C133_no_gap, C133_first_set. C133_used_before shows that the exception for messages used before is needed."
 },
 "C134": {
  "status": "proved",
  "note": "C134_older, C134_never_fewer. C134_later_message_fewer: an additional message that is not at the beginning can mean fewer sets."
 }
}