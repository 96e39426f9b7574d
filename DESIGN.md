# Formal model of ros2/message_filters: design

First written before the proofs; kept current as the model grows.

## Layout

* `lean/Verif/Model/*.lean`: executable model, one file per source file or concern. Every definition cites the lines of
  `/repo` it models and names its simplifications.
* `lean/Verif/Spec/*.lean`: small independent vocabulary used in statements (histories, streams, spans, interleavings).
* `lean/Verif/Proofs/*.lean`: helper lemmas and invariants. Nothing here needs to be read to understand a property.
* `lean/Verif/Props/*.lean`: the property theorems only (`Cnn_...`), with non-vacuity examples beside them.
* `properties.jsonl`: the properties in English; `MANIFEST.json`: which theorems settle them
  (generated by `tools/manifest.py` from the theorem names and `tools/notes.json`).
* `seeded/LOG.jsonl`: mutation log, written by `tools/mutate.py`, which edits a scratch copy of the model, rebuilds and
  records which property theorems fail.

## Modelling conventions

* A message event is `Ev = {id, stamp}`: `id` stands for the identity of the shared message, `stamp` for
  `TimeStamp<M>::value` in nanoseconds. Payloads are never inspected by the filters (payloads are modelled, as a heap,
  where callbacks modify them: C09-C11).
* Stamps are unbounded `Int`. That checked 64-bit arithmetic agrees with this for header stamps is property C56.
  Clock types of `rclcpp::Time` are modelled where they matter (TimeSequencer C47, LatestTime, MessageEvent).
* N heterogeneous inputs are `Fin n -> _`; fold expressions over index sequences are folds over `List.finRange n`.
  The theorems hold for every `n` (the C++ allows 2 to 9).
* Undefined behaviour, assertion failure, thrown exceptions and non-termination are distinct outcomes
  (`Except Fault _`); loops take fuel, and running out of it is the fault `hang`. Partial-correctness theorems
  hold for every fuel; termination theorems give a fuel beyond which `hang` cannot occur; non-termination
  theorems say that every fuel hangs.
* Mutex-protected functions are atomic steps; C51 justifies that for arbitrary schedules and bodies.
* Signals are appended to an output log in the state, so "what the user's callback was called with" is the log.
* `double` arithmetic is an arbitrary structure of operations (LatestTime) or an arbitrary function (`scale`, the age
  penalty product of ApproximateTime); theorems needing a law of arithmetic state it as a hypothesis.

## Plan per property: what is modelled and how it is proved

| id | what is modelled | how it is proved |
|----|------------------|------------------|
| C01-C07 | `cache.hpp`: add, setCacheSize and all queries as index loops | invariant (sorted, bounded) by induction over histories; queries proved equal to declarative specifications (`filter`, `takeWhile`) on the held messages. C03 as documented is false; counterexample plus the part that holds |
| C08 | `signal1.hpp`, `signal9.hpp`, `connection.cpp`: callback vector with helper identities | refinement to the list of live registrations over all histories |
| C09-C11 | message heap, `MessageEvent`, `ParameterAdapter`, `CallbackHelper1T/9T` | frame property of the heap by induction over the callback list; callbacks are arbitrary heap transformers limited to what they were given; C10 is false, witness plus conditions under which it holds |
| C12 | `chain.hpp`, `pass_through.hpp`; filters are arbitrary state machines | invariant on the connections built by addFilter; delivery computed by induction on the chain |
| C13, C14, C50, C59, C61 | connection tables of sources and sinks with object liveness; constructors as step sequences | invariant over connect/output/destroy histories; exact conditions (iff) for use after destruction; counterexamples for Cache, PassThrough, Chain |
| C15-C20 | `exact_time.hpp` with `std::map` as a sorted association list | invariants; conservation by counting; stream-intersection theorem for in-order inputs |
| C21-C26 | `approximate_epsilon_time.hpp` | invariants; number of messages as termination measure; confluent canonical run for interleaving independence |
| C27-C34 | `approximate_time.hpp` complete, including the virtual search | one global invariant giving no fault and termination; optimality (C32), also when queues overflow, by relating the candidate to all sets through the pivot; C33 by a canonical search in which the part of a stream not yet received only bounds from below; `NoOverflow` (Spec/Overflow): the queue limit never matters, shown to leave every state unchanged |
| C35-C37, C57, C58 | `latest_time.hpp` over an abstract arithmetic | invariants; access outside a vector is an explicit outcome; ordered-field hypotheses only for C57/C58 |
| C38, C60 | copy constructors / `operator=` of the four policies and the Synchronizer constructors | equality of behaviour from the copied state, for all continuations; counterexamples |
| C39-C43 | `input_aligner.hpp` | invariants over histories of add/setInputPeriod/dispatch; termination measure |
| C44-C47 | `time_sequencer.hpp` with clock readings as an oracle and clock types | invariants; counterexamples for C46, C47 |
| C48, C49 | `subscriber.hpp` as a state machine over nodes, topics and the middleware's subscriptions | refinement to "last subscribe" specification |
| C51, C62 | generic small-step threads with a mutex, bodies of arbitrary granularity; instances for each filter | linearisation by induction over the schedule; races as two enabled unprotected accesses |
| C52 | which locks are held while a message travels through connected filters | acyclic network gives a rank on mutexes, no waiting cycle; witnesses for re-entry and crossed callbacks |
| C53, C54 | TimeSequencer and Cache with unlocked delivery | invariants over interleavings; witnesses for disorder |
| C55 | an oracle `boom` that decides which callback invocation throws, in every filter | all invariants re-proved for the state left behind; exact description of what is lost or repeated |
| C56 | checked 64-bit arithmetic in the four filters that compute with stamps | whole-history equality with the unbounded model by simulation under interval bounds |
| C63-C66 | Python `TimeSynchronizer`: queues as insertion-ordered dicts, the lock as a flag, an oracle for raising callbacks | invariant (no common stamp waits, bounded, distinct stamps) over histories; counting for "each once"; full characterisation of the output for queues that are large enough. C66 is false: a raised exception leaves the lock taken |
| C67-C69 | Python `ApproximateTimeSynchronizer`: `itertools.product` as the lexicographic product, `sorted` as a stable sort | invariant (no matching set waits); first match in the product proved to be lexicographically closest |
| C70 | Python `Cache` with clock types; a comparison that raises is an outcome | what is held computed in closed form for every history; queries proved equal to declarative ones; witnesses for out-of-order input, equal times, mixed clocks |
| C71 | threads calling the Python `Cache.add`, one list operation per step | invariant counting the threads at each point of `add`; witnesses for wrong pairing and over-eviction |
| C72 | Python `SimpleFilter`; callbacks with arbitrary effects | calls computed in closed form; exact behaviour for raising and registering callbacks |
| C73 | constructors as statement sequences interleaved with deliveries; `connectInput` called again, old callbacks still registered | simulation: equality with the history without the early, or replaced inputs', messages; witness for the window without slop |
| C74 | the events of a set, missing ones default-constructed, given to callbacks with arbitrary parameter kinds | exact condition for safety; combined with the completeness of output sets and incompleteness of dropped sets |
| C75 | programs over event variables with static types; the heap of messages; `getMessage` hidden in copying a non-const event | invariant: private copies are younger than the given messages and different; every statement decomposed into touching and putting |
| C76 | Model/PolicyAssign: `operator=` of the four policies applied to the policy of an existing synchronizer, with and without `init()` | invariants of the parent pointer for all policies; simulation up to the stale candidate (ApproximateTime); the offset between counter and non-empty queues is invariant (ApproximateEpsilonTime); witnesses for each violation |
| C77 | Model/Latest: the clock reading (type and nanoseconds) is part of each delivery, so a replaced clock is a history with readings of different types | a message whose reading is rejected changes nothing but the latest message (add_rejected), by induction over the later history; invariant: the time of a rate's last update bounds all readings of its input; classification of the faults of find_pivot |
| C78 | Model/ClockMix, Model/ApproxClock: the functions of the other models with the exits by exception added; the clock type of a message is an arbitrary function of its identity | invariant that what is held is of one clock type (Cache, ExactTime), of type ros (InputAligner); simulation of the model without clock types on the accepted messages; invariant of the blocked states for ApproximateEpsilonTime; for ApproximateTime a simulation of the model without clock types up to the first exception, and invariants that survive an exception at any of its comparisons |
| C79 | Model/ClockMix: the query loops with the throwing comparison | the loops with and without clock types agree up to the first comparison; C79_* give necessary and sufficient conditions for the exception and the answer otherwise |
| C80 | Model/Pipeline `feed`, `sequencerCache`: a call of the sequencer followed by the cache's `add` for what it has output | factorisation of joint runs into the two filters; a cache fed in time order holds the last N; C44/C45 for the sequencer |
| C81 | Model/Pipeline `alignerExact` | simulation between ExactTime with and without queue limit when fed in time order; C39, C40 for the aligner; C19 for ExactTime |
| C82 | Model/Pipeline `Sequencers`, `sequencersExact` | each sequencer's state is that of its own calls; its output is strictly ordered; C19, C20 |
| C83 | Model/Pipeline `alignerEpsilon`, `alignerApprox` | factorisation of joint runs; C39 discharges the order conditions of C26, C31, C33, C34 |
| C84 | Model/Lifetime: constructor, connectInput and destructor as programs of locking, registering and erasing steps, interleaved with any number of delivering threads and the timer | invariant linking the owner's remaining program, the holders of the sources' mutexes and the callbacks still to be called; the program of each class is shown safe by induction over the reconnections |
| C85 | Model/Lifetime `construct` | the same invariant: callbacks are only registered, and so only called, in the right stage |
| C86 | Model/PyConc `statement`, `approxStatement`: the two `add` methods statement by statement, run by any number of threads with the lock as mutex | the statement-level bodies implement the sequential models of C63-C69 (for every point of the body, what remains of it); then the linearization theorem of C51 |
| C87 | Model/PyConc `tstep`: registerCallback as two dict operations, signalMessage as an iteration that raises when the size has changed | invariants over the schedule: what each thread has still to call; the registrations begun and done; the size and position remembered by an iteration |
| C88 | the models of C01-C47 and C63-C69, run on a history followed by another one | simulation between the filter with what is left over and a new one with fewer places (ExactTime, Cache) or with other counters (InputAligner, ApproximateEpsilonTime); for ApproximateTime the invariants of C29 and C32 counted from an arbitrary reachable state on |
| C89 | the model of C29-C34 | the virtual search gives up only at a set of virtual messages that beats the candidate; these messages are a possible future, and the exhaustive search on it has another result (search_optimal); a candidate is only held while exactly one input is exhausted; larger bounds: messages are passed over by stamp and then by input, so two synchronizers that both hold a candidate wait for the same input |
| C90 | the models of C15-C34 and C63-C66 | invariant over the calls: the first k rounds were output, the buffers hold exactly the rest of what was received, and k or k+1 is the smallest number of messages received on an input; for ApproximateTime every step of the search preserves that the candidate is one round |
| C91 | the warning flag of each synchronizer (as in C27) and the static variables of RCUTILS_LOG_WARN_ONCE, shared by the synchronizers of a type | the flag changes only in add, by comparison with the last message of the deque, which is the last message received if the deque is not empty; invariant over the histories of a process |
| C92 | the constructor with Python's argument binding, the lookup of attributes; Python's calling convention, attribute lookup and the signature of create_subscription are trusted | case analysis on the positional arguments; forwarding from C72; induction on the recursion depth |
| C93 | the lock operations of a message that travels through connected Python filters, exceptions with their tracebacks, threads | lock operations are bracketed and ordered by a rank: induction on the calls; waiting chains end by the rank; exceptions by induction on the calls |
| C94 | ApproximateTime (as C27-C34) | on the canonical search: a search ends if every stream has a message newer than the pivot; the set found is not older than what every stream has below the pivot (optimality); then induction on the sets; transferred to the code by C33/C34 |
| C95 | ExactTime (as C15-C20) | invariant: of the stamps that some input has delivered and some input has not reached, the queue holds exactly those with fewer than q newer stamps, with all their messages; counting argument on the q newest stamps |
| C96 | the Python TimeSynchronizer (as C63-C66), ExactTime | invariant: of the stamps that some input has not reached, each queue holds exactly those with fewer than q newer messages on its input; the comparison follows from the two characterisations |
| C97 | ApproximateEpsilonTime (as C24-C27) | a queue is only ever held while another input is empty; what it holds is then ahead of that input, because every message that left the other queue left with, or after, everything behind it; with C24, C25 and C26 |
| C98 | ApproximateTime (as C28-C34) | an invariant of the search: every possible set is waiting (all messages held), doomed (the candidate conflicts with it) or hit (an output set conflicts with it); preserved by deletion, examination and publication |
| C99 | ApproximateTime (as C28-C34) | an invariant: every held message is either not more than M behind the newest message of an input that waits, or lies between the candidate and the pivot, within M |
| C100 | ApproximateTime, ApproximateEpsilonTime, ExactTime, the Python synchronizers | ApproximateTime: with interval zero no candidate survives a call, so by the invariant of C98 every possible set has been output; ApproximateEpsilonTime: C21, C22, C26 and C97; Python: the calls are shown equal state by state |
| C101 | ApproximateTimeSynchronizer (as C67-C69) | a simulation between two queue sizes: the queues agree on the stamps some input is not past yet, eviction removes none of them, and the first acceptable combination contains no others |
| C102 | InputAligner (as C39-C43) | an invariant of the dispatch loop: output and queues together are the streams, the output is sorted and due; the turn that ends the loop shows that the rest is not due |
| C103 | TimeSequencer (as C44-C46) | an invariant: output and queue together hold every message received, the output only due ones, the queue only waiting ones; so the queue has the length of the waiting list and never overflows |
| C104 | ExactTime, ApproximateEpsilonTime, ApproximateTime, Python TimeSynchronizer and ApproximateTimeSynchronizer (as C15, C21, C27, C66) | what has been delivered arrived before all that is still to come, so no input is ahead of the next message of another one by more than D; counting stamps p apart in that interval gives the room conditions of C95, C96, C97, C99 and C101 |
| C105 | pipelines (as C80-C83) | C102 and C103 fix the output log of the first filter; the state of the second is a function of that log; C81 and C82 give the sets |
| C106 | Python ApproximateTimeSynchronizer (as C66) | a simulation between two queue sizes: they agree on all messages that some message still to come is within the slop of; eviction touches none of these |
| C107 | ApproximateEpsilonTime (as C21) | the output of the bounded queues is the one of the iterations on the complete streams: messages in front of a queue that are not within epsilon of the new one are discarded one at a time |
| C108 | ApproximateEpsilonTime (as C21), ApproximateTime (as C27), Python ApproximateTimeSynchronizer (as C66) | by an invariant over all histories: a matching set is output or what was delivered of it is held; an ApproximateTime candidate has passed over nothing but its oldest message, as the next one of that input is too late for any better set |
| C109 | ApproximateTime (as C27) | the search over complete streams of C33 finds the best contiguous set (induction over the search; a contiguous set takes a first message and so spans the pivot, which can be exchanged into it at no cost), and the model outputs a beginning of that sequence (C33, C89) |
| C110 | ApproximateEpsilonTime (as C21), ApproximateTime (as C27), Python ApproximateTimeSynchronizer (as C67) | exchange argument: if the two oldest messages are within epsilon, a largest pairing can be changed to contain them as a pair; induction over the iterations of C107. Comparison: the outputs of the others are pairings (C30, C31, C67). Python: every possible set meets an output set (C106), and an output set meets at most n disjoint ones |
| C111 | ApproximateTime (as C27) | the simulation of the canonical search (C33) extended to states in which inputs have lost messages; the first steps after a loss start from a state without candidate. Starvation: invariant over the rounds |
| C112 | ApproximateEpsilonTime, ApproximateTime, InputAligner with a synchronizer behind it, Python ApproximateTimeSynchronizer (as C21, C27, C83, C66) | reduction to C106, C107 and C110; the density of what an aligner dispatches from C40. ApproximateTime: invariant over the pause for every queue size, then C108 for one place more |
| C113 | message_traits.hpp (`Model/Traits.lean`) on top of the models of the filters | invariant over histories in which all stamps are equal; for LatestTime a simulation between histories with different messages |
| C114 | the policies' models; a source connected to all inputs is a history in which every message reaches every input before the next one (`Spec/FanOut.lean`) | induction over the messages, with an inner induction over the inputs a message has reached; for LatestTime from C57 and C35 |
| C115 | the policies' models; silence is a history without messages on that input (`Spec/LateStart.lean`) | induction over the silence: the state reached is given in closed form from the state before and the last messages of each input; equal states (for ApproximateTime equal up to the flags of warnings given, for ExactTime up to the log) have equal continuations |
| C116 | the policy's model with rational numbers for double | from C36, C37 and C58: the estimate of an input that has stopped does not change; induction over the messages of the other inputs |
| C117 | the InputAligner model of C39-C43 | from C42_progress (what is held back is held back by an active input expected not later) and C40_content; the state after a dispatch is a fixed point of the dispatch step |
| C118 | Cache, TimeSequencer and InputAligner as in C01-C07, C39-C46, connected as in C80; an InputAligner with one cache per output is added (Model/Pipeline.lean, alignerCaches) | a cache fed in time order holds the last N messages; what is cut off is older than the oldest stamp; for the pipelines from C39, C40, C80, C103 and C117 |
| C119 | the pipelines sequencersEpsilon and sequencersApprox (Model/Pipeline.lean), built from the TimeSequencer and the policies as in C24-C34, C44-C46 | each sequencer behaves as alone; its output is in time order (C44) and, with punctual messages, consists of what is due (C103); then C26, C31, C33, C34 |
| C120 | Chain as in C12; a Subscriber is a filter whose add does nothing and that outputs by itself | the pipeline of C12 with and without the filters before the source agree step by step: a source turns everything it is fed into nothing and keeps its state |
| C121 | the policies, Cache and Python synchronizers as in C01-C20; Spec/Shift.lean says what it means to replace the messages of a history | a simulation: a relation between the two states is shown to be preserved by every function of the policy, faults included |
| C122 | the policies and Python synchronizers as in C01-C20; Spec/Renumber.lean says what it means to renumber the inputs of a history | a simulation for ExactTime, ApproximateEpsilonTime and TimeSynchronizer; for ApproximateTime the description of its sets in C109 is shown to be symmetric in the inputs |
| C123 | the policies and Python synchronizers as in C01-C20; Spec/Replay.lean says what it is to send a list of sets set by set | induction over the sets: between two sets nothing is kept, within one the messages so far are all that is kept; for ApproximateTime the theorem about rounds (C90) |
| C124 | the policies and Python synchronizers as in C01-C20; Spec/Narrow.lean says what it is to leave inputs out of a history and a set | from the exact descriptions of the sets that bounded queues keep (C95, C96): without some inputs the last message of a set comes no later and no more newer messages have come; ApproximateEpsilonTime from the maximum of C110 |
| C125 | the policies and Python synchronizers as in C01-C20; lost messages are a sublist of the calls, Spec/Lossy.lean says which sets are not affected | from the exact descriptions of the sets that bounded queues keep (C95, C96), of the sets of inputs far apart (C108), and the maximum of C110 with the pairs of lost messages taken out |
| C126 | ExactTime and TimeSynchronizer as in C15-C20 and C63-C66 | induction over the history: a delivered stamp that is newer than all outputs has its slot filled in a pending set; the upper bound from the conservation of messages (C16) |
| C127 | the Python Cache as in C70 | the cache holds a suffix of the usable messages (C70); in time order what was removed is not newer than the oldest cached time and what is added later is not older than the newest |
| C128 | the three synchronizers as in C21, C28 and C67 | C108 describes the output as the matching sets, for either tolerance; C110 for two inputs; C109 and a lattice argument (the older and the newer messages of two best sets) for ApproximateTime |
| C129 | Cache, TimeSequencer and the approximate synchronizers as before | simulation: contents of the smaller cache are a sublist of those of the larger one; the queue of the smaller sequencer is the end of that of the larger one and full whenever they differ |
| C130 | the C++ Cache as in C01-C07 and the Python Cache as in C70 | both hold the last messages (C03, C70) and the queries are described as filters of what is held |
| C131 | the TimeSequencer as in C44 | simulation: output and queue of the one with more timer calls are a sublist of those of the other one, and what only the latter holds is not newer than the last output of the former |
| C132 | ApproximateTime as in C27 and C109 | both sets are the cheapest contiguous set of the same remaining messages (C109); compare the costs of these and of the sets of the older and of the newer messages of both, which are contiguous as well; induction over the sequence of sets |
| C133 | ApproximateTime as in C27 and C109 | if a set took a later message than necessary, the one with the first message instead would be contiguous and not more expensive (C109) |
| C134 | ApproximateTime as in C27 and C109 | the sets of the older and of the newer messages of two best sets are contiguous as well (as in C132); induction over the sequence of sets |

Every property so far can be expressed; none is `not_applicable`.

## Trusted base

* Lean 4.33.0's kernel. No axioms of our own, no `sorry`, no `native_decide`/`bv_decide`.
* The reading of `/repo` recorded in the comments of the model (the correspondence between C++ and Lean is by inspection).
* C++ standard library: `std::map`/`std::multiset` iterate in key order, `multiset::insert` puts an equal element last;
  `vector`, `deque` and `tuple` as sequences; `lock_guard` releases on every exit, including by exception;
  `std::mutex` is not recursive; `shared_ptr` keeps its object alive.
* rclcpp: comparing or subtracting `Time`s of different clock types throws, as does `Time ± Duration`, `Time − Time` or
  `Duration * double` outside int64; a default `Time()`/`Clock()` has type SYSTEM_TIME and header stamps ROS_TIME;
  `Duration * double` truncates toward zero; `Time(msg)` throws for negative seconds; `Time::max` is
  (INT32_MAX s, 999999999 ns); `create_subscription` may throw, and its result lives as long as a pointer to it.
* CPython and rclpy: dicts iterate in insertion order and a dict that changed size during iteration raises at the next step;
  single list operations are atomic (global interpreter lock); `threading.Lock` is not reentrant; comparing times of
  different clock types raises TypeError.
* Sequentially consistent interleavings of atomic steps in the concurrency models (properties C51-C54, C61); this is sound
  for executions without data races, which is what C62 is about.

### Axioms each theorem depends on

Generated by `tools/axioms.py` from `#print axioms`.

<!-- AXIOMS BEGIN -->
* no axioms (26 theorems): `C02_size_zero_is_undefined`, `C03_most_recent_fails_out_of_order`, `C103_punctual_needed`, `C113_stamp`, `C127_newer_needed`, `C127_oldest_needed`, `C127_order_needed`, `C129_cache_resized`, `C129_sequencer_distinct_needed`, `C129_sequencer_steady_needed`, `C130_order_needed`, `C131_steady_needed`, `C131_unlimited_needed`, `C131_unlimited_needed_delay`, `C38_epsilon`, `C46_equal_stamps_dropped_together`, `C52_deliver_locks`, `C53_two_timers_disorder`, `C55_cache_unaffected`, `C55_sequencer_loss_witness`, `C70_getLast_violated_equal_times`, `C70_mixed_clocks`, `C70_violated_out_of_order`, `C76_outputs_go_to_other`, `C76_standalone_policy_asserts`, `C78_cache_loses_message`
* `propext` (102 theorems): `C06_getSurroundingInterval_empty`, `C08_disconnect_connected`, `C100_room_needed`, `C102_alive_needed`, `C102_period_needed`, `C102_spacing_needed`, `C102_start_needed`, `C103_room_needed`, `C107_room_needed`, `C109_tie`, `C110_three_inputs`, `C112_epsilon_density_needed`, `C115_approximate_one_more_needed`, `C115_epsilon_stored_needed`, `C115_exact_stamps_needed`, `C118_oldest_needed`, `C118_order_needed`, `C118_strict_needed`, `C119_order_needed`, `C11_different_sources_throw`, `C11_equality`, `C11_no_copy`, `C121_order_not_enough`, `C122_approximate_ahead`, `C123_approximate_differs`, `C124_approximate_fails`, `C124_epsilon_three_fails`, `C124_exact_order_needed`, `C126_order_needed`, `C128_approximate_other`, `C129_approximate_other`, `C129_epsilon_three_fewer`, `C129_epsilon_two_other`, `C12_same_filter_twice`, `C130_empty_differ`, `C130_neighbours_differ`, `C132_more_sets`, `C132_older_and_wider`, `C133_used_before`, `C134_later_message_fewer`, `C13_cache_violated`, `C14_violated`, `C20_out_of_order_output`, `C26_misses_matching_set`, `C32_exact_match_may_be_missed`, `C36_nan_undefined`, `C36_out_of_bounds`, `C36_wrong_rate`, `C38_approximate`, `C38_exact_every_drop`, `C38_exact_forgets_drop_callbacks`, `C38_exact_violated`, `C38_latest_configure_afterwards`, `C38_latest_forgets_rate_config`, `C38_latest_partial`, `C38_latest_violated`, `C52_timer_locks`, `C54_content_linearizable`, `C54_order_may_differ`, `C55_approx_stall_loses_set`, `C55_approx_stall_witness`, `C55_cache_propagates`, `C55_epsilon_queue_exceeded`, `C55_exact_complete_set_dropped`, `C55_exact_drop_throws_exceeds`, `C55_latest_unaffected`, `C56_age_penalty_overflow`, `C56_epsilon_overflow`, `C59_source_destroyed_first`, `C60_approximate_violated`, `C60_latest`, `C70_headerless_ignored`, `C71_over_eviction_violated`, `C71_pairing_violated`, `C72_each_callback_once`, `C72_raising_callback`, `C75_copy_of_const`, `C75_default`, `C75_faults`, `C75_undefined`, `C76_approximate_violated`, `C76_epsilon_violated`, `C76_exact`, `C76_latest`, `C77_mixed_clocks_throw`, `C78_epsilon_bound_violated`, `C84_timer_race`, `C84_timer_violated`, `C85_synchronizer_race`, `C85_synchronizer_violated`, `C87_output_cut_short`, `C87_raises_at_the_end`, `C87_registration_lost`, `C88_approximate_mixed`, `C89_bounds_must_hold`, `C91_may_be_missed`, `C91_second_synchronizer_silent`, `C92_attributes`, `C95_order_needed`, `C97_room_needed`, `C98_crossing`, `C98_room_needed`
* `Quot.sound`, `propext` (94 theorems): `C01_never_faults`, `C06_getSurroundingInterval`, `C07_extreme_times`, `C08_no_other_calls`, `C09_no_copy`, `C100_headers_needed`, `C100_slop_two`, `C100_strict_needed`, `C101_order_needed`, `C101_room_needed`, `C104_delay_needed`, `C104_exact_delay_needed`, `C106_late_needed`, `C106_rates_sharp`, `C107_order_needed`, `C107_rates_sharp`, `C107_three_inputs`, `C107_weaker_than_C97`, `C108_approximate_distance_needed`, `C108_epsilon_distance_needed`, `C108_epsilon_room_needed`, `C108_matches_disjoint`, `C108_python_distance_needed`, `C10_violated`, `C110_room_needed`, `C110_share_sharp`, `C110_strict`, `C112_epsilon_three_inputs`, `C113_exact`, `C113_latest`, `C117_can_hold_for_ever`, `C117_time_does_not_release`, `C11_strict_total_order`, `C121_approximate`, `C122_exact`, `C122_python_approximate_depends`, `C124_python_approximate_fails`, `C128_epsilon_three_fewer`, `C128_epsilon_two_other`, `C128_python_three_fewer`, `C128_python_two_fewer`, `C129_python_other`, `C27_queue_size_zero`, `C27_setters`, `C36_undefined_iff`, `C37_two_passes`, `C38_exact_partial`, `C45_no_output_on_add`, `C47_header_message_throws`, `C47_system_time_partial`, `C48_copied_subscription_violates`, `C49_shared_node_dangles`, `C49_wrong_node`, `C51_exact_time_statements`, `C52_feeding_back`, `C52_reconnecting_in_callback`, `C55_aligner_exception_reaches_caller`, `C55_approx_without_exceptions`, `C55_epsilon_exception_reaches_caller`, `C55_exact_exception_reaches_caller`, `C55_latest_propagates`, `C55_sequencer_loses_rest`, `C55_signal_recovers`, `C55_signal_stops_at_first_exception`, `C55_without_exceptions`, `C56_header_time`, `C60_exact`, `C66_headerless_message_disables`, `C66_raising_callback_disables`, `C67_headerless_ignored`, `C70_getInterval_reversed`, `C71_uninterrupted_partial`, `C73_construction_approx_partial`, `C73_construction_cache`, `C73_construction_locked`, `C73_construction_ts`, `C73_construction_violated`, `C73_leaked_lock_blocks`, `C74_safe_iff`, `C75_event_unchanged`, `C77_throws_only_if_mixed`, `C78_aligner`, `C78_aligner_throws`, `C84_not_detaching_violated`, `C92_forwards`, `C93_disabled_forever`, `C93_exception_disables_traceback`, `C93_exception_spreads_upstream`, `C93_feedback_blocks`, `C93_mutual_feedback_deadlock`, `C94_room_needed`, `C96_order_needed`, `C96_three_inputs_differ`, `C97_order_needed`
* `Classical.choice`, `Quot.sound`, `propext` (538 theorems): `C01_cache_sorted_stable`, `C02_add_evicts_oldest`, `C02_resize_keeps`, `C03_most_recent_partial`, `C03_newest_stamp_kept`, `C04_getInterval`, `C05_getElemAfterTime`, `C05_getElemBeforeTime`, `C07_forwards_everything`, `C08_disconnect`, `C08_disconnect_idempotent`, `C08_output_calls_connected`, `C09_isolation`, `C100_approximate`, `C100_approximate_is_exact`, `C100_epsilon`, `C100_epsilon_is_exact`, `C100_python`, `C101_finds_matches`, `C101_queue_size_irrelevant`, `C102_determined`, `C102_held`, `C102_output`, `C103_determined`, `C103_output`, `C103_queue_size_irrelevant`, `C104_approximate`, `C104_epsilon`, `C104_exact`, `C104_exact_common_trigger`, `C104_python_approximate`, `C104_python_exact`, `C105_aligner_exact`, `C105_behind_aligner`, `C105_behind_sequencer`, `C105_sequencer_cache`, `C105_sequencers_exact`, `C106_finds_matches`, `C106_queue_size_irrelevant`, `C106_rates`, `C106_weaker_than_C101`, `C107_finds_matches`, `C107_queue_size_irrelevant`, `C107_rates`, `C108_agree`, `C108_approximate`, `C108_approximate_rates`, `C108_epsilon`, `C108_epsilon_interleaving`, `C108_epsilon_rates`, `C108_python`, `C108_python_rates`, `C109_contiguous_unlimited`, `C109_every_set`, `C109_exists`, `C109_output`, `C109_room_needed`, `C109_two_contiguous`, `C109_unique`, `C109_when`, `C10_isolation_const_partial`, `C10_isolation_partial`, `C110_against_approximate_time`, `C110_against_other_queue_sizes`, `C110_against_python`, `C110_approximate_time_older`, `C110_is_pairing`, `C110_maximum`, `C110_no_share`, `C110_place_by_place`, `C110_python_share`, `C111_goes_on`, `C111_ordered`, `C111_skips_nothing`, `C111_skips_only_older`, `C111_starvation`, `C111_until_next_loss`, `C112_aligner_epsilon`, `C112_aligner_sparse`, `C112_approximate_no_queue_size`, `C112_approximate_pauses`, `C112_epsilon`, `C112_epsilon_sparse`, `C112_python`, `C112_python_sparse`, `C113_aligner_passes`, `C113_aligner_starves`, `C113_approximate`, `C113_cache`, `C113_epsilon`, `C113_epsilon_mixed`, `C113_exact_mixed`, `C113_sequencer`, `C114_approximate`, `C114_epsilon`, `C114_epsilon_queue_needed`, `C114_exact`, `C114_latest_stale`, `C114_python_approximate`, `C114_python_exact`, `C114_python_slop_needed`, `C115_approximate`, `C115_approximate_waits`, `C115_epsilon`, `C115_epsilon_waits`, `C115_exact`, `C115_python_approximate`, `C115_python_exact`, `C116_never_late_iff`, `C116_periodic_partial`, `C116_silent_forever`, `C116_step_change_blocks`, `C116_takes_over_partial`, `C116_two_messages_block`, `C116_uneven_start_blocks`, `C117_held_less_than_timeout`, `C117_output_in_time`, `C117_queue_bound`, `C118_aligner_end_to_end`, `C118_aligner_returns`, `C118_behind_aligner`, `C118_behind_sequencer`, `C118_cache_in_order`, `C118_neighbours_behind_aligner`, `C118_neighbours_in_order`, `C119_approximate_canonical`, `C119_approximate_end_to_end`, `C119_approximate_order_irrelevant`, `C119_approximate_returns`, `C119_epsilon_end_to_end`, `C119_epsilon_finds_matches`, `C119_epsilon_returns`, `C11_copies_are_private`, `C11_copy_of_mutable`, `C11_private_copy`, `C120_add_ignored`, `C120_only_behind_source`, `C120_passes_source`, `C121_cache`, `C121_epsilon`, `C121_exact`, `C121_python_approximate`, `C121_python_time`, `C122_approximate`, `C122_approximate_two`, `C122_epsilon`, `C122_python_time`, `C123_approximate`, `C123_epsilon`, `C123_exact`, `C123_python_approximate`, `C123_python_time`, `C124_epsilon_two`, `C124_exact`, `C124_python_time`, `C125_approximate_apart`, `C125_epsilon_apart`, `C125_epsilon_two`, `C125_epsilon_two_no_gain`, `C125_epsilon_two_older`, `C125_exact`, `C125_exact_may_gain`, `C125_exact_unlimited`, `C125_python_approximate_fails`, `C125_python_time`, `C126_aligner_due`, `C126_aligner_end_to_end`, `C126_at_most`, `C126_behind_aligner`, `C126_behind_sequencers`, `C126_common_stamps`, `C126_exactly_once`, `C126_python_common_stamps`, `C127_after`, `C127_before`, `C127_interval`, `C128_approximate_apart`, `C128_approximate_never_fewer`, `C128_approximate_older`, `C128_epsilon_apart`, `C128_epsilon_two`, `C128_epsilon_two_older`, `C128_python_apart`, `C129_cache`, `C129_python_cache`, `C129_sequencer`, `C12_add`, `C12_all_messages`, `C12_empty`, `C12_index`, `C12_out_of_range`, `C12_pipeline`, `C12_transparent`, `C130_agree`, `C130_reversed_differ`, `C131_fewer_timer_calls`, `C131_output_in_the_end`, `C132_age_penalty`, `C132_large_penalty`, `C132_never_fewer`, `C132_no_penalty`, `C132_older`, `C133_first_set`, `C133_no_gap`, `C134_never_fewer`, `C134_older`, `C13_cache`, `C13_reconnect_replaces_partial`, `C14_output_safe_iff`, `C14_safe_partial`, `C15_complete_sets_never_wait`, `C15_never_faults`, `C15_outputs_complete_equal_stamps`, `C16_conservation`, `C16_exactly_one_fate`, `C17_bounded`, `C17_discards_oldest`, `C18_dropped_sets_incomplete`, `C18_output_drops_exactly_older`, `C19_bounded_queue_subsequence`, `C19_interleaving_independent`, `C19_outputs_exactly_common_stamps`, `C20_monotone_partial`, `C21_no_other_fault`, `C21_sets_within_epsilon`, `C22_each_message_once_in_order`, `C22_no_message_in_two_sets`, `C23_bounded`, `C24_negative_epsilon_hangs`, `C24_terminates_partial`, `C25_interleaving_independent`, `C26_finds_matches_partial`, `C27_C28_returns_normally`, `C27_complete_sets`, `C27_no_other_fault`, `C28_terminates`, `C29_bounded`, `C30_each_message_once_in_order`, `C30_no_message_in_two_sets`, `C31_max_interval`, `C31_max_interval_in_order`, `C32_optimal`, `C33_interleavings_agree`, `C33_prefix_of_canonical`, `C34_determined_sets_are_output`, `C35_latest`, `C35_not_on_first`, `C36_configuration_partial`, `C36_in_order_partial`, `C36_rate_slots`, `C36_safe_if_all_first`, `C36_safe_iff`, `C37_clock_must_advance`, `C37_trigger`, `C38_exact_drop_callbacks_called`, `C39_global_order`, `C40_accounting`, `C40_content`, `C40_dropped_iff`, `C41_hangs_otherwise`, `C41_terminates`, `C41_terminates_positive_timeout`, `C42_inactive_means_timed_out`, `C42_next_expected`, `C42_progress`, `C43_no_loss`, `C43_not_dropped_while_active`, `C44_content`, `C44_late_message_ignored`, `C44_nothing_lost`, `C44_output_sorted`, `C45_delay`, `C45_exact`, `C46_bound`, `C46_drops_oldest_partial`, `C46_no_drop_before_full`, `C46_overflow`, `C47_header_messages_never_output`, `C48_current`, `C48_forwards_only_current_partial`, `C48_others_silent`, `C49_exact`, `C49_node_lifetime`, `C49_restores_partial`, `C49_safe_iff`, `C49_step_safe_iff`, `C50_destroyed`, `C50_routing`, `C51_all_calls_made`, `C51_approximate_time`, `C51_approximate_time_schedules_agree`, `C51_epsilon_time`, `C51_epsilon_time_schedule_independent`, `C51_exact_time`, `C51_exact_time_schedule_independent`, `C51_faults`, `C51_input_aligner`, `C51_linearizable`, `C51_mutual_exclusion`, `C51_one_at_a_time`, `C51_signal`, `C52_all_calls_return`, `C52_crossed_callbacks_deadlock`, `C52_no_deadlock`, `C53_delay`, `C53_many_timers`, `C53_no_duplicates`, `C53_single_timer_linearizable`, `C53_single_timer_sorted`, `C54_cached_before_passed_on`, `C54_exactly_once`, `C54_no_fault`, `C54_progress`, `C55_aligner_content`, `C55_aligner_global_order`, `C55_aligner_retries`, `C55_aligner_terminates`, `C55_approx_bounded_partial`, `C55_approx_complete_sets`, `C55_approx_each_once_in_order`, `C55_approx_exception_reaches_caller`, `C55_approx_max_interval`, `C55_approx_no_fault`, `C55_approx_set_stays`, `C55_approx_stalls`, `C55_epsilon_bound_partial`, `C55_epsilon_each_message_once`, `C55_epsilon_output`, `C55_epsilon_retries`, `C55_epsilon_same_sets`, `C55_epsilon_terminates`, `C55_exact_accounting`, `C55_exact_bounded_after_return`, `C55_exact_bounded_partial`, `C55_exact_complete_pending`, `C55_exact_no_fault`, `C55_exact_output`, `C55_exact_set_stays`, `C55_sequencer_same_queue`, `C56_aligner_exact`, `C56_approx_exact`, `C56_epsilon_exact`, `C56_header_order`, `C56_no_overflow`, `C56_sequencer_exact`, `C57_periodic`, `C58_estimate_within_bounds`, `C59_connect_safe_iff`, `C59_destroy_safe_iff`, `C59_history_safe_iff`, `C59_step_safe_iff`, `C60_approximate_partial`, `C60_epsilon_dead`, `C60_epsilon_partial`, `C61_construction_race`, `C61_exact`, `C62_locked_calls_no_race`, `C62_protected_filters`, `C62_setters_race`, `C62_unlocked_call_races`, `C62_without_setters`, `C63_complete_sets`, `C63_each_once`, `C64_at_most_one_set`, `C64_bounded`, `C64_evicts_oldest`, `C64_nothing_withheld`, `C65_finds_all_sets`, `C65_interleaving`, `C65_time_order`, `C66_always_returns_partial`, `C66_approximate_always_returns_partial`, `C66_approximate_exception_blocks_forever`, `C66_exception_blocks_forever`, `C66_raises_iff`, `C67_at_most_one_set`, `C67_bounded`, `C67_complete_sets`, `C67_each_once`, `C67_evicts_oldest`, `C68_nothing_withheld`, `C68_zero_slop_outputs_nothing`, `C69_closest_first`, `C69_two_inputs`, `C70_clock_mismatch`, `C70_extreme_times_partial`, `C70_getElemAfterTime_first_arrived`, `C70_getElemAfterTime_partial`, `C70_getElemBeforeTime_last_arrived`, `C70_getElemBeforeTime_partial`, `C70_getInterval`, `C70_getLast_partial`, `C70_last_messages`, `C71_eviction_bound`, `C71_held_when_idle`, `C71_no_fault`, `C71_passed_on`, `C72_registering_inside_callback`, `C73_construction_window`, `C73_reconnect_approx`, `C73_reconnect_ts`, `C73_replaced_inputs_approx`, `C73_replaced_inputs_ts`, `C73_window_exact`, `C74_drop_callbacks_fault`, `C74_nullable_drop_callbacks_safe`, `C74_output_callbacks_safe`, `C75_content`, `C75_copy_of_mutable_shares`, `C75_messages_never_modified`, `C75_mutable_messages_private`, `C75_new_pointer`, `C75_no_fault`, `C75_same_pointer`, `C76_approximate_partial`, `C76_epsilon_dead`, `C76_epsilon_partial`, `C77_other_clock_silent`, `C77_set_back_silent`, `C78_approx_bound_violated`, `C78_approx_dead`, `C78_approx_no_false_throw`, `C78_approx_one_clock`, `C78_approx_same_clock`, `C78_approx_throws_once`, `C78_approx_two_clocks_partial`, `C78_cache_add_partial`, `C78_cache_one_clock`, `C78_cache_same_clock`, `C78_cache_stuck`, `C78_epsilon_add_partial`, `C78_epsilon_dead`, `C78_epsilon_outputs`, `C78_epsilon_ros`, `C78_epsilon_silent`, `C78_exact_accepted`, `C78_exact_add`, `C78_exact_one_clock`, `C78_exact_same_clock`, `C78_exact_stuck`, `C79_clock_exists`, `C79_getElemAfterTime`, `C79_getElemBeforeTime`, `C79_getInterval`, `C79_getSurroundingInterval`, `C80_cache_holds_most_recent`, `C80_end_to_end`, `C81_arrival_order_irrelevant`, `C81_end_to_end`, `C81_exactly_common_stamps`, `C81_queue_size_irrelevant`, `C81_returns`, `C82_end_to_end`, `C82_exactly_common_stamps`, `C82_returns`, `C83_approximate_canonical`, `C83_epsilon_finds_matches`, `C84_can_finish`, `C84_destructor_waits`, `C84_nothing_runs_afterwards`, `C84_safe`, `C84_timer_partial`, `C85_construction_safe`, `C85_synchronizer_exact`, `C86_approximate`, `C86_blocks_only_after_exception`, `C86_exception_blocks_every_thread`, `C86_schedule_independent`, `C86_statements`, `C86_time_synchronizer`, `C87_fixed_callbacks`, `C87_one_registrar`, `C87_raises_iff`, `C87_returned_complete`, `C88_aligner_ignores_restart`, `C88_approximate_forgets`, `C88_approximate_recovers`, `C88_cache_one_place`, `C88_cache_smaller_partial`, `C88_epsilon_forgets`, `C88_epsilon_memoryless`, `C88_exact_blocked`, `C88_exact_smaller_queue_partial`, `C88_py_approximate_blocked`, `C88_py_exact_blocked`, `C88_sequencer_ignores_restart`, `C89_exact_partial`, `C89_larger_bounds_never_delay`, `C89_larger_bounds_only_help`, `C89_may_be_withheld`, `C89_next_arrival_partial`, `C89_output_is_determined`, `C89_two_inputs_exact`, `C90_approx_gap_needed`, `C90_approx_queue_needed`, `C90_approx_rounds`, `C90_epsilon_rounds`, `C90_exact_rounds`, `C90_python_approx_rounds`, `C90_python_exact_rounds`, `C90_python_span_needed`, `C91_complete_while_waiting_partial`, `C91_no_false_alarm`, `C91_noticed_iff`, `C91_printed`, `C91_printing_changes_nothing`, `C92_constructs_iff_partial`, `C92_positional_qos_rejected`, `C92_subscription`, `C93_all_return_partial`, `C93_cause_of_blocking`, `C94_interval_needed`, `C94_no_overflow`, `C94_progress`, `C94_recent`, `C94_silent_input`, `C94_sustained`, `C95_bounded_outputs`, `C95_enough_room`, `C95_larger_queue`, `C96_bounded_outputs`, `C96_enough_room`, `C96_larger_queue`, `C96_python_loses_no_more`, `C96_two_inputs_agree`, `C97_finds_matches`, `C97_no_overflow`, `C97_queue_size_irrelevant`, `C98_decided_within_four_windows`, `C98_maximal`, `C98_rates`, `C98_sets_follow`, `C98_undecided`, `C99_density_needed`, `C99_interleavings_agree`, `C99_no_overflow`, `C99_queue_size_irrelevant`, `C99_room_needed`
<!-- AXIOMS END -->

## What is modelled and what is not

| source | modelled | not modelled |
|--------|----------|--------------|
| `cache.hpp` | all of it | logging |
| `chain.hpp` | addFilter, add, getFilter-by-index routing, connectInput, destruction | `setName`-style accessors |
| `connection.hpp/.cpp` | Connection, disconnect | |
| `input_aligner.hpp` | all of it except the timer | `setupDispatchTimer` (a timer tick is a `dispatch` operation of the history), name accessors |
| `message_event.hpp` | constructors, operator=, getMessage, getConstMessage, nonConstWillCopy, isConst | the `operator<` etc. on whole events beyond what the containers use |
| `message_traits.hpp` | TimeStamp as the field `stamp`, header times in C56 | template dispatch |
| `parameter_adapter.hpp` | all adapters as the kinds of parameter | template dispatch |
| `pass_through.hpp`, `simple_filter.hpp` | all | name accessors |
| `signal1.hpp`, `signal9.hpp` | all | the overload set for 2..9 parameters is one definition over `Fin n` |
| `subscriber.hpp` | all overloads of subscribe, unsubscribe, destructor, getters | lifecycle node overloads are the same code; deserialization in the middleware |
| `synchronizer.hpp`, `time_synchronizer.hpp` | constructors, connectInput, disconnectAll, add routing, signal, destruction | name accessors |
| `time_sequencer.hpp` | all | the timer itself (a tick is an operation) |
| `sync_policies/*.hpp` | all of the four policies, copy operations included | `RCUTILS_LOG` output (`checkInterMessageBound` only logs and sets a flag; the flag is modelled) |
| `src/message_filters/__init__.py` | SimpleFilter, Cache, TimeSynchronizer, ApproximateTimeSynchronizer, their constructors and connectInput, Subscriber | what rclpy does with the subscription, logging, attribute getters |
| tests, documentation, build files | no | |

## Disagreements between code and stated property

Each is proved as a theorem with a concrete witness or, where given, as an exact condition.

* C03: with out-of-order input the cache does not hold the N most recent messages: a late old message evicts an older-stamped
  one and is itself kept.
* C10: `Signal9::call` computes a forced-copy flag/events and does not use them; with `nonconst_need_copy = false` two callbacks
  share one mutable message.
* C12: adding the same filter object twice to a Chain makes a message circulate forever (hang).
* C13: `Cache::connectInput` does not disconnect: the old source still feeds it.
* C14: PassThrough and Chain never disconnect, a reconnected Cache only its last connection: their sources call into the destroyed object.
* C20: out-of-order inputs give out-of-order output sets.
* C24: negative epsilon with two or more inputs: `add` never returns.
* C26: with three or more inputs ApproximateEpsilonTime can miss a matching set.
* C27: queue_size 0 is undefined behaviour when assertions are compiled out.
* C32: the pivot rule can miss an exact match.
* C36: LatestTime reads outside its rate vector, or uses another input's rate, if inputs do not first arrive in index order.
* C38: copying ExactTime loses its drop callbacks; copying LatestTime loses its rate configuration.
* C41: `dispatchMessages` hangs if the timeout is ≤ stamp − Time::max.
* C46: equal-stamped messages are dropped together on overflow.
* C47: header-stamped messages always throw in TimeSequencer (clock types differ).
* C48: a copy from `getSubscriber()` keeps the old subscription delivering.
* C49: re-subscribe can use the wrong node, or a dangling one.
* C52: re-entry, disconnecting from within the callback and crossed callbacks block forever.
* C53: two timer threads disorder the output. C54: forwarding order may differ from insertion order.
* C55: TimeSequencer loses the remaining due messages; ExactTime may drop a complete set, and exceeds queue_size when a drop
  callback throws; ApproximateEpsilonTime and ApproximateTime exceed queue_size by one per exception; ApproximateTime stalls
  after an exception until a queue overflows, and then loses the set.
* C56: an age penalty of 9 with an unset stamp, or epsilon INT64_MAX, throws.
* C59: a source destroyed before its sink leaves the sink's destructor with a dangling pointer.
* C60: ApproximateTime loses its candidate when copied in use; ApproximateEpsilonTime loses its counter and never outputs again.
* C61: connecting before initialising: a message arriving during construction fails.
* C62: the configuration setters are unprotected.
* C66: in Python an exception (raising callback, headerless message in a TimeSynchronizer, negative queue size) leaves the lock
  taken; every later call blocks forever.
* C68: the slop of the Python ApproximateTimeSynchronizer is exclusive: slop 0 outputs nothing, not even equal stamps.
* C70: the Python Cache searches in order of arrival: with out-of-order input getElemAfterTime/getElemBeforeTime do not return the
  nearest message; getLast returns the older of two messages with the same time; a stamp of another clock type makes queries raise.
* C71: overlapping calls of the Python `Cache.add` can pair each message with the time of the other, and evict too many.
* C72: in Python a raising callback keeps the message from the callbacks after it; registering within a callback raises.
* C73: two messages between lock and slop in the constructor disable an ApproximateTimeSynchronizer.
* C74: every set given to a drop callback has a missing message; taken by value or reference it is an access through null, as
  non-const pointer a failing assertion.
* C76: `*sync.getPolicy() = policy` compiles and is public, but breaks the synchronizer: `operator=` copies `parent_` (null for a stand-alone policy, another synchronizer's address otherwise). Calling `sync.init()` afterwards repairs that, but ApproximateTime then may publish the old candidate of the synchronizer (`candidate_` is not assigned) and ApproximateEpsilonTime never outputs again if a different number of inputs had messages waiting (`number_of_non_empty_events_` is not assigned).
* C77: `setClock` with a clock of another type silences LatestTime for good (every rate keeps its old time stamp, because `compute_hz` returns before `prev = now` when the subtraction throws), and if some input has not delivered yet `find_pivot` lets the exception of the time subtraction escape from `add`.
* C78: A message with a stamp of another clock type makes a full Cache lose its oldest message, and blocks ApproximateEpsilonTime for good with queues that grow beyond the queue size (the queue size is only enforced when `process` is not called). In ApproximateTime the exception leaves every queue filled and no candidate, a state from which nothing starts the search again, so the policy never outputs another set; and `checkInterMessageBound` throws before the queue limit is reached, so an input that alternates between clock types grows without bound.
* C84: TimeSequencer::~TimeSequencer cancels its timer but does not wait for a callback that has been taken by another executor thread; InputAligner does not even cancel it. With a multi-threaded executor destroying either one can use a destroyed object.
* C87: registerCallback computes its key with len() and stores in a second step, without a lock; signalMessage iterates over the dict itself, not over a copy.
* C88: no C++ or Python filter looks for time going backwards; only the two ApproximateTime policies recover by themselves, because they evict in order of arrival; the others evict or refuse by stamp.
* C89: the code looks for sets only when a message arrives on an exhausted input; with three or more inputs, a message on another input can settle the choice and is not looked at. Example in C89_may_be_withheld: 100, 90, 90 and then 200 on the third input.
* C91: checkInterMessageBound has code that compares with the last message set aside for the candidate (past_) if the deque holds only the new message, but add calls it only if the deque holds at least two messages: this code is never reached, and such violations are missed.
* C92: the documentation says 'takes identical arguments as rclpy.Subscriber'; the callback is appended after the positional arguments, so that a fourth positional argument lands in the place of the callback and qos_profile is given twice: TypeError.
* C93: C++ uses lock guards, the Python classes call release() only on the normal path: after an exception in the callback of a synchronizer all synchronizers it passes through on its way up stay locked.
* C111: the comments at lines 519-520 and 533 give as the reason for deleting the oldest front that a dropped message could have been better than the newest front; with equal stamps and getCandidateEnd choosing the last of equally new inputs, the rule deletes a message whose exact match is still held, and so on for ever (C111_starvation). With the roles of the two inputs exchanged every set is output
* C113: an InputAligner without periods starves inputs whose messages have no header: once an input has had a message output, its next message is expected at time 0, so messages of later inputs, also at time 0, wait for it for ever (C113_aligner_starves).
* C114: a user would expect the latest message on every input; LatestTime takes input 0 as the fastest of equally fast inputs and outputs when a message reaches it, before the other inputs have received the same message (C114_latest_stale).
* C116: the code comments that it uses the fastest message that isn't late, but an input without an error estimate, or with a large one, is never late: the synchronizer is silent for good if such an input dies (C116_silent_forever).
* C117: the class comment says that an input without messages will time out and be ignored; the timeout is compared with the newest stamp added, not with a clock, so without newer messages nothing times out and queued messages stay (C117_time_does_not_release, C117_can_hold_for_ever).
