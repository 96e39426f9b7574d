{"id": "C01", "title": "Cache contents are always in time order", "statement": "After any history of add()/setCacheSize() calls on a Cache, the messages it holds (as seen through every query) are in non-decreasing stamp order, and messages with equal stamps stay in the order in which they were added, no matter in which order the messages arrived.", "quantifier": "all histories of add/setCacheSize with arbitrary stamps (out of order, equal, negative), all cache sizes > 0", "why_tests_cant": "unit tests only feed a few arrival orders; the claim ranges over all permutations and sizes", "anchors": ["include/message_filters/cache.hpp:Cache::add"]}
{"id": "C02", "title": "Cache is bounded, keeps the newest arrival and evicts only the oldest stamps", "statement": "After every add(m) the cache holds at most the configured number of messages, m is one of them, and the messages that were evicted by this add are exactly the oldest-stamped ones, no more of them than needed to make room.", "quantifier": "all histories and all positive sizes, including shrinking the size between adds", "why_tests_cant": "eviction interacts with out-of-order insertion and resizing; only induction over histories covers it", "anchors": ["include/message_filters/cache.hpp:Cache::add", "include/message_filters/cache.hpp:Cache::setCacheSize"]}
{"id": "C03", "title": "Cache keeps the N most recent messages", "statement": "The Cache holds exactly the N most recent messages it was given ('the most recent N messages are cached').", "quantifier": "all histories of add with a fixed size N", "why_tests_cant": "for in-order input it must hold for every history length; for out-of-order input the claim is false and only a counterexample plus the exact in-order theorem settles it", "anchors": ["include/message_filters/cache.hpp:Cache::add", "doc/index.rst"]}
{"id": "C04", "title": "getInterval returns exactly the cached messages inside the closed interval", "statement": "getInterval(start,end) returns every cached message whose stamp s satisfies start <= s <= end, nothing else, in time order, also when start > end or the cache is empty.", "quantifier": "all reachable caches and all start/end", "why_tests_cant": "correctness depends on the cache being sorted, an invariant over all histories", "anchors": ["include/message_filters/cache.hpp:Cache::getInterval"]}
{"id": "C05", "title": "getElemBeforeTime / getElemAfterTime return the closest strictly earlier / later message", "statement": "getElemBeforeTime(t) returns the newest cached message with stamp strictly before t and null iff there is none; getElemAfterTime(t) returns the oldest cached message strictly after t and null iff there is none.", "quantifier": "all reachable caches, all t", "why_tests_cant": "relies on the sortedness invariant for all histories", "anchors": ["include/message_filters/cache.hpp:Cache::getElemBeforeTime", "include/message_filters/cache.hpp:Cache::getElemAfterTime"]}
{"id": "C06", "title": "getSurroundingInterval returns the smallest surrounding run", "statement": "On a non-empty cache getSurroundingInterval(start,end) returns a non-empty contiguous run of the cache beginning with the newest message at or before start (or the oldest cached message if there is none) and ending with the first message from there on that is at or after end (or the newest cached message if there is none); on an empty cache it returns nothing.", "quantifier": "all reachable caches, all start/end", "why_tests_cant": "index arithmetic with two loops over an arbitrary sorted sequence with duplicates", "anchors": ["include/message_filters/cache.hpp:Cache::getSurroundingInterval"]}
{"id": "C07", "title": "Cache is a transparent pass-through and reports its extreme times", "statement": "Every message added to a Cache is forwarded to its output exactly once and in the order of the add calls, whether or not it displaced or was placed behind others; getOldestTime/getLatestTime are the least/greatest stamps cached.", "quantifier": "all histories", "why_tests_cant": "covers every history", "anchors": ["include/message_filters/cache.hpp:Cache::add", "include/message_filters/cache.hpp:Cache::getLatestTime", "include/message_filters/cache.hpp:Cache::getOldestTime"]}
{"id": "C08", "title": "Registered callbacks are invoked exactly once, in registration order, until disconnected", "statement": "For any history of registerCallback / Connection::disconnect / message output on a filter, each output invokes exactly the callbacks registered and not yet disconnected, each once, in registration order; disconnecting is idempotent and never affects other callbacks.", "quantifier": "all histories of register/disconnect/signal, any number of callbacks", "why_tests_cant": "arbitrary interleavings of registration and disconnection", "anchors": ["include/message_filters/signal1.hpp:Signal1", "include/message_filters/signal9.hpp:Signal9", "include/message_filters/simple_filter.hpp:SimpleFilter::registerCallback", "src/connection.cpp:Connection::disconnect"]}
{"id": "C09", "title": "Callbacks of a simple filter cannot see each other's modifications", "statement": "When a filter with more than one callback outputs a message, a callback that takes a mutable message and modifies it never changes what any other callback, or the publisher of the message, observes; with one callback and an event that does not require copying no copy is made.", "quantifier": "all lists of callbacks (const and mutable), all modifications, all messages", "why_tests_cant": "quantifies over arbitrary callback behaviour", "anchors": ["include/message_filters/signal1.hpp:CallbackHelper1T::call", "include/message_filters/signal1.hpp:Signal1::call", "include/message_filters/parameter_adapter.hpp:ParameterAdapter", "include/message_filters/message_event.hpp:MessageEvent::getMessage"]}
{"id": "C10", "title": "Synchronizer callbacks cannot see each other's modifications", "statement": "When a Synchronizer (or drop signal) with more than one callback outputs a set, a callback taking mutable messages never changes what other callbacks or the publisher observe.", "quantifier": "all lists of callbacks, all modifications, all events (including events that do not require copying)", "why_tests_cant": "quantifies over arbitrary callback behaviour; the code ignores the forced-copy flag it computes, so the claim fails for events constructed with nonconst_need_copy=false", "anchors": ["include/message_filters/signal9.hpp:CallbackHelper9T::call", "include/message_filters/signal9.hpp:Signal9::call"]}
{"id": "C11", "title": "MessageEvent copies lazily, at most once, and never for const access", "statement": "getMessage() on a const event always returns the original message; on a mutable event that needs a copy it returns one private copy equal to the original, the same one on every later call; the original is never modified through it. operator</==/!= form a strict total order consistent with equality of (message identity, receipt time, copy flag).", "quantifier": "all events and all sequences of accesses", "why_tests_cant": "identity/aliasing facts over all access sequences", "anchors": ["include/message_filters/message_event.hpp:MessageEvent"]}
{"id": "C12", "title": "A Chain pipes every message through its filters in order, exactly once", "statement": "A message added to a Chain (or arriving at its connected input) is passed through all added filters in the order they were added, and what the last filter outputs is output by the chain exactly once; an empty chain outputs nothing; addFilter returns the index under which getFilter later returns that filter, and getFilter out of range returns null.", "quantifier": "all numbers and behaviours of distinct filter objects, all interleavings of addFilter, add and filters that output by themselves", "why_tests_cant": "arbitrary chain lengths and histories of rewiring", "anchors": ["include/message_filters/chain.hpp:Chain::addFilter", "include/message_filters/chain.hpp:Chain::add", "include/message_filters/chain.hpp:Chain::getFilter", "include/message_filters/pass_through.hpp:PassThrough"]}
{"id": "C13", "title": "Reconnecting an input replaces the previous connection", "statement": "After connectInput on a filter, exactly one delivery is made to it per message of the new source and none per message of the old source.", "quantifier": "all sequences of connectInput calls on any number of sources; for PassThrough, Chain, TimeSequencer, Synchronizer, InputAligner, Cache", "why_tests_cant": "arbitrary reconnect histories; Cache violates it because it never disconnects the old source", "anchors": ["include/message_filters/pass_through.hpp:PassThrough::connectInput", "include/message_filters/chain.hpp:Chain::connectInput", "include/message_filters/cache.hpp:Cache::connectInput", "include/message_filters/synchronizer.hpp:Synchronizer::connectInput", "include/message_filters/input_aligner.hpp:InputAligner::connectInput", "include/message_filters/time_sequencer.hpp:TimeSequencer::connectInput"]}
{"id": "C14", "title": "Destroying a filter detaches it from its source", "statement": "After a filter object has been destroyed, output of its former source never calls into the destroyed object, whatever the history of connections was.", "quantifier": "all filter kinds, all histories of connect/destroy/output", "why_tests_cant": "lifetime histories; PassThrough and Chain have no disconnecting destructor and violate it, and a re-connected Cache violates it too", "anchors": ["include/message_filters/cache.hpp:Cache::~Cache", "include/message_filters/pass_through.hpp:PassThrough", "include/message_filters/chain.hpp:Chain", "include/message_filters/synchronizer.hpp:Synchronizer::~Synchronizer", "include/message_filters/input_aligner.hpp:InputAligner::~InputAligner", "include/message_filters/time_sequencer.hpp:TimeSequencer::~TimeSequencer"]}
{"id": "C15", "title": "ExactTime only outputs complete sets with identical stamps", "statement": "Every set a TimeSynchronizer / ExactTime synchronizer outputs has one message for each input, all with exactly the same stamp, and the i-th message was added on input i.", "quantifier": "all numbers of inputs, queue sizes, and histories of adds in any order", "why_tests_cant": "all interleavings and stamps", "anchors": ["include/message_filters/sync_policies/exact_time.hpp:ExactTime::add", "include/message_filters/sync_policies/exact_time.hpp:ExactTime::checkTuple"]}
{"id": "C16", "title": "ExactTime accounts for every message exactly once", "statement": "Each message added to an ExactTime synchronizer is, at any later moment, in exactly one of four situations: output once in a set, reported once to the drop callback, replaced by a later message with the same stamp on the same input, or still pending. In particular no message is output twice or both output and dropped.", "quantifier": "all histories, all queue sizes", "why_tests_cant": "conservation over unbounded histories", "anchors": ["include/message_filters/sync_policies/exact_time.hpp:ExactTime::checkTuple", "include/message_filters/sync_policies/exact_time.hpp:ExactTime::drop_range"]}
{"id": "C17", "title": "ExactTime memory is bounded by queue_size", "statement": "With queue_size > 0, after each add an ExactTime synchronizer holds at most queue_size pending sets, and when it must discard it discards the sets with the smallest stamps.", "quantifier": "all histories, all queue sizes", "why_tests_cant": "unbounded histories", "anchors": ["include/message_filters/sync_policies/exact_time.hpp:ExactTime::checkTuple"]}
{"id": "C18", "title": "ExactTime drop callback reports only incomplete, superseded or overflowing sets", "statement": "Each set given to the drop callback is non-empty and incomplete (so at least one slot is null); drops made in one add are in increasing stamp order; when a set with stamp T is output, every pending set older than T is dropped and, unless the queue is over-full, no younger one is.", "quantifier": "all histories", "why_tests_cant": "arbitrary pending populations", "anchors": ["include/message_filters/sync_policies/exact_time.hpp:ExactTime::clearOldTuples", "include/message_filters/sync_policies/exact_time.hpp:ExactTime::registerDropCallback"]}
{"id": "C19", "title": "ExactTime output does not depend on the interleaving of in-order inputs", "statement": "If each input delivers messages with strictly increasing stamps and the queue is unlimited (0), then the sets output are exactly those whose stamp occurs on all inputs, in increasing stamp order, whatever the interleaving of the inputs.", "quantifier": "all in-order streams, all interleavings", "why_tests_cant": "exponentially many interleavings of unbounded streams", "anchors": ["include/message_filters/sync_policies/exact_time.hpp:ExactTime"]}
{"id": "C20", "title": "ExactTime outputs in time order", "statement": "The sets output by an ExactTime synchronizer have increasing stamps.", "quantifier": "all histories", "why_tests_cant": "true for per-input ordered histories, false for out-of-order ones; tests only show samples", "anchors": ["include/message_filters/sync_policies/exact_time.hpp:ExactTime::checkTuple"]}
{"id": "C21", "title": "ApproximateEpsilonTime only outputs complete sets within epsilon", "statement": "Every set output has one message per input, the i-th from input i, and any two stamps in the set differ by at most epsilon.", "quantifier": "all histories, stamps, epsilon, queue sizes", "why_tests_cant": "all interleavings and stamps", "anchors": ["include/message_filters/sync_policies/approximate_epsilon_time.hpp:ApproximateEpsilonTime::process"]}
{"id": "C22", "title": "ApproximateEpsilonTime uses each message at most once and in arrival order per input", "statement": "On each input the messages occurring in successive output sets are a subsequence of the messages added on that input; a message never occurs in two sets.", "quantifier": "all histories", "why_tests_cant": "unbounded histories", "anchors": ["include/message_filters/sync_policies/approximate_epsilon_time.hpp:ApproximateEpsilonTime::erase_beginning_of_vectors"]}
{"id": "C23", "title": "ApproximateEpsilonTime memory is bounded by queue_size", "statement": "After each add, every input buffers at most queue_size messages, and at least one input buffers none.", "quantifier": "all histories, all queue sizes", "why_tests_cant": "unbounded histories", "anchors": ["include/message_filters/sync_policies/approximate_epsilon_time.hpp:ApproximateEpsilonTime::add"]}
{"id": "C24", "title": "ApproximateEpsilonTime add always returns", "statement": "Every add() terminates.", "quantifier": "all histories and all epsilon", "why_tests_cant": "termination; holds for epsilon >= 0, and for negative epsilon with at least two inputs the call that makes all inputs non-empty never returns", "anchors": ["include/message_filters/sync_policies/approximate_epsilon_time.hpp:ApproximateEpsilonTime::process"]}
{"id": "C25", "title": "ApproximateEpsilonTime output does not depend on the interleaving", "statement": "As long as no queue overflows (no input would ever hold more than queue_size messages if it could hold all), the sequence of output sets and the remaining buffers depend only on the sequence of messages of each input, not on how the inputs are interleaved.", "quantifier": "all streams, all interleavings", "why_tests_cant": "exponentially many interleavings", "anchors": ["include/message_filters/sync_policies/approximate_epsilon_time.hpp:ApproximateEpsilonTime"]}
{"id": "C26", "title": "ApproximateEpsilonTime does not miss matching sets", "statement": "If the inputs contain messages (one per input, in-order streams, no overflow) that are within epsilon of each other and not yet consumed by an output, they (or an overlapping set) are output.", "quantifier": "all streams", "why_tests_cant": "false: the policy discards every front message within epsilon of the oldest one when one input is too late; only a counterexample plus the exact greedy characterisation settles it", "anchors": ["include/message_filters/sync_policies/approximate_epsilon_time.hpp:ApproximateEpsilonTime::erase_old_events_if_on_sync_with_ts"]}
{"id": "C27", "title": "ApproximateTime never violates its internal assumptions", "statement": "For every history of adds (any stamps, in or out of order, any configuration with queue_size >= 1) ApproximateTime never reads the front of an empty buffer, never fails one of its assertions, and always outputs complete sets (no null slot).", "quantifier": "all histories, stamps, configurations and numbers of inputs", "why_tests_cant": "memory safety over all inputs, including the optimistic 'virtual' search", "anchors": ["include/message_filters/sync_policies/approximate_time.hpp:ApproximateTime::process", "include/message_filters/sync_policies/approximate_time.hpp:ApproximateTime::add"]}
{"id": "C28", "title": "ApproximateTime add always returns", "statement": "Every add() terminates, for all inputs and all configurations.", "quantifier": "all histories, stamps and configurations", "why_tests_cant": "termination of two nested loops", "anchors": ["include/message_filters/sync_policies/approximate_time.hpp:ApproximateTime::process"]}
{"id": "C29", "title": "ApproximateTime memory is bounded by queue_size", "statement": "After each add every input buffers at most queue_size messages.", "quantifier": "all histories, queue sizes >= 1", "why_tests_cant": "unbounded histories", "anchors": ["include/message_filters/sync_policies/approximate_time.hpp:ApproximateTime::add"]}
{"id": "C30", "title": "ApproximateTime uses messages at most once and its sets do not cross", "statement": "On each input, the messages in successive output sets form a subsequence of the messages added on that input (so no message is used twice and sets never cross), and the buffered messages are always the most recently added ones of that input.", "quantifier": "all histories and configurations", "why_tests_cant": "unbounded histories", "anchors": ["include/message_filters/sync_policies/approximate_time.hpp:ApproximateTime::publishCandidate", "include/message_filters/sync_policies/approximate_time.hpp:ApproximateTime::makeCandidate"]}
{"id": "C31", "title": "ApproximateTime respects the maximum interval", "statement": "If age_penalty >= 0, no output set spans more than the configured maximum interval: for in-order inputs whatever the rounding of the age-penalty product, and for inputs in any order when that product is exact up to truncation.", "quantifier": "all histories, all configurations and numbers of inputs", "why_tests_cant": "the candidate is replaced repeatedly during the search; whether a replacement can widen it depends on all stamps, including out-of-order ones", "anchors": ["include/message_filters/sync_policies/approximate_time.hpp:ApproximateTime::setMaxIntervalDuration", "include/message_filters/sync_policies/approximate_time.hpp:ApproximateTime::process"]}
{"id": "C32", "title": "ApproximateTime outputs the optimal set for its pivot", "statement": "With in-order inputs, each output set C contains a pivot message such that among all sets T made of messages received (now or ever, including messages dropped because a queue was full) after the previously output set and containing that same pivot message, C minimises (1+age_penalty)*latest - earliest (with age_penalty 0: the time span).", "quantifier": "all in-order streams respecting the configured inter-message bounds, all configurations, all queue sizes and overflows", "why_tests_cant": "optimality over all combinations of messages including future ones", "anchors": ["include/message_filters/sync_policies/approximate_time.hpp:ApproximateTime::process", "include/message_filters/sync_policies/approximate_time.hpp:ApproximateTime::getVirtualTime"]}
{"id": "C33", "title": "ApproximateTime output depends only on the stamps, not on arrival times", "statement": "For in-order inputs respecting the inter-message bounds and a queue that never overflows, the outputs of any two interleavings of the same per-input streams are prefixes of one another; both are prefixes of one canonical sequence computed from the streams alone.", "quantifier": "all streams and all interleavings", "why_tests_cant": "exponentially many interleavings; includes soundness of the early 'provably optimal' exits", "anchors": ["include/message_filters/sync_policies/approximate_time.hpp:ApproximateTime::process"]}
{"id": "C34", "title": "ApproximateTime does not withhold a determined set", "statement": "Whenever every input has delivered enough messages that the search for the current pivot is exhausted by received messages alone, the set has been output by the time add returns; in particular after each add some input has no unexamined message.", "quantifier": "all in-order histories without overflow", "why_tests_cant": "liveness over all histories", "anchors": ["include/message_filters/sync_policies/approximate_time.hpp:ApproximateTime::process"]}
{"id": "C35", "title": "LatestTime outputs the most recent message of every input", "statement": "Every set LatestTime outputs consists of the most recently added message of each input, including the message whose add triggered the output; nothing is output before each input has delivered a message, and one add outputs at most one set.", "quantifier": "all histories, clock readings, rate configurations, and any floating-point behaviour", "why_tests_cant": "arbitrary schedules and arithmetic", "anchors": ["include/message_filters/sync_policies/latest_time.hpp:LatestTime::add", "include/message_filters/sync_policies/latest_time.hpp:LatestTime::publish"]}
{"id": "C36", "title": "LatestTime is safe for every arrival order", "statement": "For every order in which the inputs deliver messages, LatestTime never accesses memory out of bounds and uses for input i the rate estimated from input i.", "quantifier": "all arrival orders", "why_tests_cant": "false: rate slots are allocated in order of first arrival but indexed by input number, so a second message on input i while at most i inputs have been seen reads past the end of the vector; exact characterisation needed", "anchors": ["include/message_filters/sync_policies/latest_time.hpp:LatestTime::initialize_rate", "include/message_filters/sync_policies/latest_time.hpp:LatestTime::add"]}
{"id": "C37", "title": "LatestTime triggers on the fastest input that is not late", "statement": "A set is output exactly when the added message's input is the first input, by decreasing estimated rate (ties to the lower index), that has an estimated rate and is not late; and never when the clock has not advanced since that input's previous message.", "quantifier": "all rate tables, clock readings", "why_tests_cant": "all rate configurations", "anchors": ["include/message_filters/sync_policies/latest_time.hpp:LatestTime::find_pivot", "include/message_filters/sync_policies/latest_time.hpp:LatestTime::Rate::compute_hz"]}
{"id": "C38", "title": "Policy configuration survives handing the policy to a Synchronizer", "statement": "A Synchronizer constructed from a configured policy object behaves like that policy: queue size, epsilon, age penalty, interval and inter-message bounds, rate configuration and drop callbacks are all kept.", "quantifier": "all configurations of all policies", "why_tests_cant": "copy semantics over all configurations; LatestTime loses its rate configuration and ExactTime its drop callbacks", "anchors": ["include/message_filters/sync_policies/latest_time.hpp:LatestTime::operator=", "include/message_filters/sync_policies/exact_time.hpp:ExactTime::operator=", "include/message_filters/sync_policies/approximate_time.hpp:ApproximateTime::operator=", "include/message_filters/sync_policies/approximate_epsilon_time.hpp:ApproximateEpsilonTime::operator=", "include/message_filters/synchronizer.hpp:Synchronizer"]}
{"id": "C39", "title": "InputAligner outputs all inputs in global time order", "statement": "The messages output by an InputAligner, over all outputs together, have non-decreasing stamps, for every history of adds, period changes and dispatches.", "quantifier": "all histories, stamps, periods, timeouts", "why_tests_cant": "global ordering over all interleavings", "anchors": ["include/message_filters/input_aligner.hpp:InputAligner::dispatchMessages", "include/message_filters/input_aligner.hpp:InputAligner::addEvent"]}
{"id": "C40", "title": "InputAligner accounts for every message", "statement": "For each input, messages added = processed (output) + dropped + still queued as reported by getQueueStatus; a message is dropped iff it is older than the last output message (time 0 if none) at the time it is added; what is output and queued is the accepted messages sorted by stamp, messages of one input with equal stamps in arrival order.", "quantifier": "all histories", "why_tests_cant": "conservation over unbounded histories", "anchors": ["include/message_filters/input_aligner.hpp:InputAligner::getQueueStatus", "include/message_filters/input_aligner.hpp:InputAligner::addEvent"]}
{"id": "C41", "title": "InputAligner dispatch always returns", "statement": "Every call of dispatchMessages() returns, for every history whose stamps (and time 0) are less than Time::max + timeout, in particular for every positive timeout.", "quantifier": "all histories, all timeouts", "why_tests_cant": "termination over all histories; without the condition dispatchMessages loops forever (for example timeout 0 and a message stamped Time::max, or a hugely negative timeout)", "anchors": ["include/message_filters/input_aligner.hpp:InputAligner::dispatchFirstMessage"]}
{"id": "C42", "title": "InputAligner only holds a message back for a live input that may still deliver an earlier one", "statement": "After dispatchMessages (stamps below Time::max), either no message is queued, or there is an active input without queued messages whose next expected stamp (last output stamp + period) is not later than any queued message and which no added message exceeds by the timeout; conversely an input with output becomes inactive only by exceeding the timeout.", "quantifier": "all histories", "why_tests_cant": "progress over all histories", "anchors": ["include/message_filters/input_aligner.hpp:InputAligner::dispatchFirstMessage", "include/message_filters/input_aligner.hpp:EventQueue::firstTimeStamp"]}
{"id": "C43", "title": "A well-behaved InputAligner input never loses messages", "statement": "Once a message of an input has been output, as long as that input does not time out and its messages arrive in order at least the configured period apart, none of its messages is dropped.", "quantifier": "all histories of the other inputs", "why_tests_cant": "adversarial behaviour of all other inputs", "anchors": ["include/message_filters/input_aligner.hpp:InputAligner::addEvent", "include/message_filters/input_aligner.hpp:EventQueue::firstTimeStamp"]}
{"id": "C44", "title": "TimeSequencer outputs in temporal order", "statement": "The messages output by a TimeSequencer have non-decreasing stamps for every history of adds and timer ticks; a message older than the newest message already output is thrown away.", "quantifier": "all histories, clock readings, delays", "why_tests_cant": "all arrival orders and timings", "anchors": ["include/message_filters/time_sequencer.hpp:TimeSequencer::add", "include/message_filters/time_sequencer.hpp:TimeSequencer::dispatch"]}
{"id": "C45", "title": "TimeSequencer waits at least, and not longer than, the delay", "statement": "A message is never output while its stamp is less than delay old, and after a timer tick no message whose stamp is at least delay old (at the last clock reading of that tick) is still queued.", "quantifier": "all histories and clock behaviours", "why_tests_cant": "all timings", "anchors": ["include/message_filters/time_sequencer.hpp:TimeSequencer::dispatch"]}
{"id": "C46", "title": "TimeSequencer overflow drops exactly the oldest message", "statement": "With queue_size > 0 at most queue_size messages are held, and when a message arrives at a full queue exactly one message, the oldest, is dropped.", "quantifier": "all histories", "why_tests_cant": "false as stated: all messages sharing the oldest stamp are dropped at once; bound holds", "anchors": ["include/message_filters/time_sequencer.hpp:TimeSequencer::add"]}
{"id": "C47", "title": "TimeSequencer works for messages with a std_msgs header", "statement": "For a message type with a standard header (stamps are ROS time), add and the timer tick run without an exception and messages are eventually output.", "quantifier": "all histories of header-stamped messages", "why_tests_cant": "false: the stored and current times are system time and comparing different time sources throws; every add throws", "anchors": ["include/message_filters/time_sequencer.hpp:TimeSequencer::add", "include/message_filters/time_sequencer.hpp:TimeSequencer::dispatch", "include/message_filters/message_traits.hpp:TimeStamp"]}
{"id": "C48", "title": "Subscriber has at most one live subscription and forwards only from it", "statement": "After any history of subscribe/unsubscribe/re-subscribe, the Subscriber holds at most one subscription, namely the one made by the last subscribe that was not followed by unsubscribe; only messages of that subscription are output, each once, in order.", "quantifier": "all histories", "why_tests_cant": "arbitrary call histories", "anchors": ["include/message_filters/subscriber.hpp:Subscriber::subscribe", "include/message_filters/subscriber.hpp:Subscriber::unsubscribe"]}
{"id": "C49", "title": "Re-subscribing restores the previous subscription", "statement": "subscribe() without arguments re-creates the subscription with the node, topic, QoS and options of the last successful subscribe, and does nothing if there was none.", "quantifier": "all histories", "why_tests_cant": "holds except after a shared-node subscribe with an empty topic (which replaces the remembered node), and the node may dangle when the shared pointer overload without options was used", "anchors": ["include/message_filters/subscriber.hpp:Subscriber::subscribe"]}
{"id": "C50", "title": "Synchronizer routes input i to slot i only", "statement": "After construction or connectInput(f0..fk), a message output by the i-th connected filter is added to slot i exactly once and to no other slot, and filters connected earlier no longer reach the synchronizer; after destruction none does.", "quantifier": "all histories of connectInput, any filters (also the same filter on several slots)", "why_tests_cant": "arbitrary reconnect histories", "anchors": ["include/message_filters/synchronizer.hpp:Synchronizer::connectInput", "include/message_filters/synchronizer.hpp:Synchronizer::disconnectAll"]}
{"id": "C51", "title": "Concurrent calls behave like some sequential order", "statement": "For any number of threads calling a filter's mutex-protected operations, every execution ends in a state and output produced by executing the calls one after another in some order that respects each thread's program order.", "quantifier": "all numbers of threads, programs and schedules", "why_tests_cant": "schedules", "anchors": ["include/message_filters/sync_policies/exact_time.hpp:ExactTime::add", "include/message_filters/sync_policies/approximate_time.hpp:ApproximateTime::add", "include/message_filters/sync_policies/approximate_epsilon_time.hpp:ApproximateEpsilonTime::add", "include/message_filters/input_aligner.hpp:InputAligner::addEvent", "include/message_filters/signal1.hpp:Signal1::call"]}
{"id": "C52", "title": "Pipelines without cycles cannot deadlock", "statement": "If filters are connected without cycles and callbacks do not call back into upstream filters, any number of threads pushing messages never reach a state where all unfinished threads wait for each other; a callback that re-enters the filter (or disconnects itself) while being called blocks forever.", "quantifier": "all acyclic networks, thread counts, schedules", "why_tests_cant": "schedules", "anchors": ["include/message_filters/signal1.hpp:Signal1::call", "include/message_filters/signal9.hpp:Signal9::call", "include/message_filters/sync_policies/exact_time.hpp:ExactTime::add", "include/message_filters/input_aligner.hpp:InputAligner::dispatchMessages"]}
{"id": "C53", "title": "TimeSequencer keeps temporal order under concurrent adds", "statement": "With a single timer thread delivering and any number of threads adding concurrently (also between the moment messages are taken from the queue and the moment they are delivered), output is in temporal order; with two concurrent timer callbacks it need not be.", "quantifier": "all schedules", "why_tests_cant": "schedules", "anchors": ["include/message_filters/time_sequencer.hpp:TimeSequencer::dispatch"]}
{"id": "C54", "title": "Cache delivers each message exactly once under concurrency", "statement": "With concurrent adders every message is cached and forwarded exactly once in every schedule; the forwarding order may differ from the insertion order because forwarding happens outside the lock.", "quantifier": "all schedules", "why_tests_cant": "schedules", "anchors": ["include/message_filters/cache.hpp:Cache::add"]}
{"id": "C55", "title": "A throwing callback does not corrupt a filter", "statement": "If a user callback throws while a set/message is being output, the filter's later behaviour still satisfies its safety properties (bounds, matching stamps, ordering), and which messages may be repeated or lost is exactly characterised per filter.", "quantifier": "all histories with arbitrary throw points", "why_tests_cant": "crash points", "anchors": ["include/message_filters/sync_policies/exact_time.hpp:ExactTime::checkTuple", "include/message_filters/input_aligner.hpp:InputAligner::dispatchFirstMessage", "include/message_filters/time_sequencer.hpp:TimeSequencer::dispatch", "include/message_filters/signal1.hpp:Signal1::call"]}
{"id": "C56", "title": "Time arithmetic on header stamps is exact", "statement": "For every valid std_msgs header stamp, differences of stamps and sums of a stamp with a duration up to the default maximum never overflow 64-bit nanoseconds, so the comparisons made by the filters equal comparisons of unbounded integers.", "quantifier": "all 32-bit second and nanosecond fields", "why_tests_cant": "2^64 stamps", "anchors": ["include/message_filters/message_traits.hpp:TimeStamp", "include/message_filters/sync_policies/approximate_time.hpp:ApproximateTime::process", "include/message_filters/input_aligner.hpp:EventQueue::firstTimeStamp"]}
{"id": "C57", "title": "LatestTime follows the fastest of periodic inputs", "statement": "If every input of a LatestTime synchronizer delivers messages at a constant period (by the policy's clock), the inputs first arrive in order and none is overdue, then a set is output exactly for the messages of the input with the smallest period among those that have delivered at least twice (ties to the lower input index), as soon as every input has delivered once; in exact arithmetic, for every rate configuration.", "quantifier": "all numbers of inputs, all periods and phases, all rate configurations, all prefixes of such histories", "why_tests_cant": "all periods, phases and configurations", "anchors": ["include/message_filters/sync_policies/latest_time.hpp:LatestTime::add", "include/message_filters/sync_policies/latest_time.hpp:LatestTime::Rate::compute_hz", "include/message_filters/sync_policies/latest_time.hpp:LatestTime::find_pivot"]}
{"id": "C58", "title": "LatestTime rate estimates stay within the observed rates", "statement": "With smoothing factors between 0 and 1 and inputs that first arrive in order, the rate LatestTime estimates for an input never leaves any interval that contains the instantaneous rates observed between its consecutive messages, and its error estimate never exceeds the width of that interval; in exact arithmetic, also across detected step changes.", "quantifier": "all histories, clock readings, bounds and configurations", "why_tests_cant": "all schedules and configurations", "anchors": ["include/message_filters/sync_policies/latest_time.hpp:LatestTime::Rate::compute_hz"]}
{"id": "C59", "title": "Sources must outlive the filters fed by them", "statement": "Destroying a filter whose destructor disconnects, or calling connectInput on a filter that first disconnects, is well defined exactly if every filter that was the last one given for any of its inputs still exists (also for inputs that a later connectInput with fewer filters no longer uses); otherwise it uses the callback list of a destroyed filter.", "quantifier": "all histories of create/connectInput/destroy/output over any number of filters of any kind", "why_tests_cant": "lifetime histories of arbitrary length; undefined behaviour need not show in a test", "anchors": ["include/message_filters/connection.hpp:Connection::disconnect", "include/message_filters/simple_filter.hpp:SimpleFilter::registerCallback", "include/message_filters/synchronizer.hpp:Synchronizer::disconnectAll", "include/message_filters/cache.hpp:Cache::~Cache"]}
{"id": "C60", "title": "A policy in use can be handed over", "statement": "A Synchronizer constructed from a policy that has already received messages (for example *other.getPolicy()) continues with the same pending messages and outputs what the original would have output.", "quantifier": "all policies, all histories before and after the copy", "why_tests_cant": "every internal state at the moment of the copy; members missing from the assignment operators only matter in some of them", "anchors": ["include/message_filters/sync_policies/exact_time.hpp:ExactTime::operator=", "include/message_filters/sync_policies/approximate_time.hpp:ApproximateTime::operator=", "include/message_filters/sync_policies/approximate_epsilon_time.hpp:ApproximateEpsilonTime::operator=", "include/message_filters/sync_policies/latest_time.hpp:LatestTime::operator="]}
{"id": "C61", "title": "Messages arriving while a Synchronizer is constructed", "statement": "A Synchronizer constructed with its input filters can be constructed while those filters are already delivering: it fails exactly if a message arrives on an already connected input before the constructor has finished.", "quantifier": "all interleavings of the constructor's steps with deliveries", "why_tests_cant": "schedules", "anchors": ["include/message_filters/synchronizer.hpp:Synchronizer::Synchronizer", "include/message_filters/synchronizer.hpp:Synchronizer::connectInput", "include/message_filters/synchronizer.hpp:Synchronizer::init"]}
{"id": "C62", "title": "Message delivery is free of data races, unprotected setters are not", "statement": "Any number of threads may deliver messages to a synchronizer or aligner, and register, disconnect and trigger callbacks, without a data race; but the configuration setters of ApproximateTime (age penalty, lower bound, max interval), LatestTime (rate configuration) and InputAligner (input period) take no lock, so calling one while another thread delivers a message is a data race.", "quantifier": "all thread counts, programs, schedules and all ways of splitting a call into atomic steps", "why_tests_cant": "schedules; a race need not show in any test run", "anchors": ["include/message_filters/sync_policies/exact_time.hpp:ExactTime::add", "include/message_filters/sync_policies/approximate_time.hpp:ApproximateTime::setMaxIntervalDuration", "include/message_filters/sync_policies/latest_time.hpp:LatestTime::setRateConfigPerMessage", "include/message_filters/input_aligner.hpp:InputAligner::setInputPeriod"]}
{"id": "C63", "title": "Python TimeSynchronizer outputs only complete same-stamp sets", "statement": "Every call of a Python TimeSynchronizer's callbacks gets one message per input, in input order, received on that input, all with the same header stamp; a message is used at most as often as it was received.", "quantifier": "all input counts, queue sizes (also negative), histories of messages with and without headers, and patterns of raising callbacks", "why_tests_cant": "histories are unbounded", "anchors": ["src/message_filters/__init__.py:TimeSynchronizer.add", "src/message_filters/__init__.py:TimeSynchronizer.connectInput"]}
{"id": "C64", "title": "Python TimeSynchronizer: bounded queues, oldest evicted, nothing withheld", "statement": "A Python TimeSynchronizer holds at most queue_size messages per input; a message that leaves without being output was replaced by one with the same stamp or was the oldest of a full queue; one call outputs at most one set, which has the new message; and no complete same-stamp set is ever left in the queues.", "quantifier": "all input counts, queue sizes >= 0, histories", "why_tests_cant": "histories are unbounded", "anchors": ["src/message_filters/__init__.py:TimeSynchronizer.add"]}
{"id": "C65", "title": "Python TimeSynchronizer finds every set, whatever the interleaving", "statement": "If queue_size is at least the number of messages per input and the stamps of one input differ, a Python TimeSynchronizer outputs exactly the same-stamp sets, each once, in time order if the inputs are in time order; which sets are output does not depend on how the inputs interleave.", "quantifier": "all input counts, messages, interleavings", "why_tests_cant": "interleavings and histories are unbounded", "anchors": ["src/message_filters/__init__.py:TimeSynchronizer.add"]}
{"id": "C66", "title": "An exception does not disable a Python synchronizer", "statement": "If one call of add raises (a callback raises, a message without header reaches a TimeSynchronizer, a negative queue size), later messages are still synchronized.", "quantifier": "all histories, raising patterns and configurations", "why_tests_cant": "histories and exception points are unbounded", "anchors": ["src/message_filters/__init__.py:TimeSynchronizer.add", "src/message_filters/__init__.py:ApproximateTimeSynchronizer.add"]}
{"id": "C67", "title": "Python ApproximateTimeSynchronizer outputs complete sets within the slop", "statement": "Every set output by a Python ApproximateTimeSynchronizer has one message per input, received on that input, with all stamps less than slop apart; each message is used at most as often as received; one call outputs at most one set, which has the new message; queues are bounded by queue_size and lose, other than by output, only replaced or oldest messages; messages without header are ignored unless allowed.", "quantifier": "all input counts, slops, queue sizes, histories, raising patterns", "why_tests_cant": "histories are unbounded", "anchors": ["src/message_filters/__init__.py:ApproximateTimeSynchronizer.add"]}
{"id": "C68", "title": "Python ApproximateTimeSynchronizer withholds no matching set", "statement": "After every call of add that returned, the queues of a Python ApproximateTimeSynchronizer contain no set (one message of each input) whose stamps are pairwise less than slop apart. The bound is exclusive: with slop 0 nothing is ever output.", "quantifier": "all input counts, slops, queue sizes, histories", "why_tests_cant": "histories are unbounded", "anchors": ["src/message_filters/__init__.py:ApproximateTimeSynchronizer.add"]}
{"id": "C69", "title": "Python ApproximateTimeSynchronizer prefers the closest messages", "statement": "Among the matching sets with the new message, the one output has, at the first input where they differ, the message closest to the new one; with two inputs the new message is paired with the closest waiting message of the other input.", "quantifier": "all input counts, slops, queue contents reachable by any history", "why_tests_cant": "queue contents are unbounded", "anchors": ["src/message_filters/__init__.py:ApproximateTimeSynchronizer.add"]}
{"id": "C70", "title": "Python Cache holds the last messages and answers queries by time", "statement": "A Python Cache holds the last cache_size usable messages, each with its own time, and passes every usable message on once, in order; getInterval returns the held messages with a time in the closed interval; getElemAfterTime the oldest held message not before the time; getElemBeforeTime the newest one not after it; getLast the newest message; getOldestTime/getLastestTime the extreme times.", "quantifier": "all cache sizes (also zero and negative), histories with and without headers, times and clock types", "why_tests_cant": "histories are unbounded", "anchors": ["src/message_filters/__init__.py:Cache.add", "src/message_filters/__init__.py:Cache.getInterval", "src/message_filters/__init__.py:Cache.getElemAfterTime", "src/message_filters/__init__.py:Cache.getElemBeforeTime", "src/message_filters/__init__.py:Cache.getLast", "src/message_filters/__init__.py:Cache.getLastestTime", "src/message_filters/__init__.py:Cache.getOldestTime"]}
{"id": "C71", "title": "Python Cache with concurrent calls of add", "statement": "If several threads call add of a Python Cache at the same time: no call fails, once all calls have returned the cache holds the cache_size messages added last, each with its own time, and every message was passed on exactly once.", "quantifier": "all numbers of threads, programs of calls, cache sizes, and interleavings of the interpreter's atomic list operations", "why_tests_cant": "interleavings are unbounded and the bad ones are rare", "anchors": ["src/message_filters/__init__.py:Cache.add"]}
{"id": "C72", "title": "Python SimpleFilter calls every callback once per message", "statement": "Every message output by a Python filter is given to every callback registered before, once per registration, in the order of registration, with the arguments given at registration, whatever the other callbacks do.", "quantifier": "all histories of registrations and outputs, all callback behaviours (raising, registering)", "why_tests_cant": "histories and callback behaviours are unbounded", "anchors": ["src/message_filters/__init__.py:SimpleFilter.registerCallback", "src/message_filters/__init__.py:SimpleFilter.signalMessage"]}
{"id": "C73", "title": "Python filters: messages during construction, and connecting new inputs", "statement": "A Python Cache, TimeSynchronizer or ApproximateTimeSynchronizer whose inputs already deliver while its constructor runs works normally once constructed (earlier messages may be lost); and after connectInput with new inputs a synchronizer behaves like a new one, whatever the replaced inputs still deliver.", "quantifier": "all interleavings of constructor statements and deliveries; all histories of deliveries and reconnections, input counts, queue sizes >= 0, slops", "why_tests_cant": "interleavings and histories are unbounded", "anchors": ["src/message_filters/__init__.py:TimeSynchronizer.__init__", "src/message_filters/__init__.py:TimeSynchronizer.connectInput", "src/message_filters/__init__.py:ApproximateTimeSynchronizer.__init__", "src/message_filters/__init__.py:Cache.__init__"]}
{"id": "C74", "title": "ExactTime callbacks may take their messages any way the API allows", "statement": "Output and drop callbacks of ExactTime may take each message by value, by const reference, as const or non-const pointer, or as const or non-const event, and are called without a fault on every set.", "quantifier": "all histories, input counts, queue sizes, sets output or dropped, lists of callbacks and parameter types", "why_tests_cant": "histories and callback lists are unbounded; a fault needs a dropped set", "anchors": ["include/message_filters/parameter_adapter.hpp:ParameterAdapter", "include/message_filters/message_event.hpp:MessageEvent::getMessage", "include/message_filters/sync_policies/exact_time.hpp:registerDropCallback", "include/message_filters/signal9.hpp:Signal9::call"]}
{"id": "C75", "title": "Programs over several MessageEvents: private copies, assignment, self-assignment", "statement": "In any program that constructs, copies, assigns (also to themselves) and reads any number of const and non-const MessageEvents, without asking for events that do not copy: no message given to a constructor is ever modified by writes through getMessage(); no two events hand out the same mutable object; an event hands out the same object, with the content of its message at the first call, until it is assigned to, and a new one afterwards; message, receipt time and flag change only by assignment. No call fails if constructors get existing messages and only constructed events are read.", "quantifier": "all programs (sequences of constructions, assignments, getMessage calls and writes), any number of events, all messages", "why_tests_cant": "programs are unbounded", "anchors": ["include/message_filters/message_event.hpp:MessageEvent", "include/message_filters/message_event.hpp:operator=", "include/message_filters/message_event.hpp:copyMessageIfNecessary"]}
{"id": "C76", "title": "Assigning a policy to the policy of an existing synchronizer", "statement": "After `*sync.getPolicy() = policy` the synchronizer goes on, with its own callbacks, as a synchronizer with the assigned policy: same configuration, same waiting messages, same later outputs.", "quantifier": "all four policies, all histories of the synchronizer's policy and of the assigned policy, all later histories of calls", "why_tests_cant": "which member is left behind shows only in particular states of both policies (a candidate held, messages waiting on different numbers of inputs) and then only at some later message", "anchors": ["include/message_filters/synchronizer.hpp: getPolicy, init", "include/message_filters/sync_policies/exact_time.hpp: operator=", "include/message_filters/sync_policies/approximate_time.hpp: operator=", "include/message_filters/sync_policies/approximate_epsilon_time.hpp: operator=", "include/message_filters/sync_policies/latest_time.hpp: operator="]}
{"id": "C77", "title": "LatestTime when its clock is replaced or set back", "statement": "LatestTime goes on matching when its clock is replaced (setClock) or set back: messages arriving afterwards are matched like before, and no message makes the policy throw.", "quantifier": "all histories under one clock, followed by all histories under a clock of another type or at earlier readings; all arithmetic (for a clock set back: without NaN)", "why_tests_cant": "whether a message is ignored, output or throws depends on which input last saw which clock and on the order of the estimated rates; the silence lasts for an unbounded number of messages", "anchors": ["include/message_filters/sync_policies/latest_time.hpp: setClock, add, Rate::compute_hz, find_pivot"]}
{"id": "C78", "title": "Messages whose stamps use another clock type", "statement": "A message whose stamp cannot be compared with the stamps already held (another clock type) is refused with an exception and has no effect: what was held stays held, later messages of the usual clock type are handled as if it had not been sent, and no set ever mixes clock types.", "quantifier": "all assignments of clock types to messages; all histories of Cache, ExactTime, ApproximateTime, ApproximateEpsilonTime and InputAligner; any number of inputs, any queue size", "why_tests_cant": "which comparison is reached first, and what has been changed by then, depends on the history and on which messages are waiting", "anchors": ["include/message_filters/cache.hpp: add", "include/message_filters/sync_policies/exact_time.hpp: add", "include/message_filters/sync_policies/approximate_epsilon_time.hpp: add, process, get_older_timestamp", "include/message_filters/sync_policies/approximate_time.hpp: add, process", "include/message_filters/input_aligner.hpp: addEvent, dispatchFirstMessage", "include/message_filters/message_traits.hpp: TimeStamp"]}
{"id": "C79", "title": "Cache queries with a time of another clock type", "statement": "A cache query whose time has another clock type than the cached messages throws instead of answering wrongly; if it returns, the answer is the one for the same nanoseconds. Exactly which combinations throw is determined by the contents: an empty cache never throws, and the end of an interval is only looked at if some message is not older than its start.", "quantifier": "all histories of a cache of any size, all assignments of clock types, all query times", "why_tests_cant": "whether the comparison that throws is reached depends on the cached stamps relative to the query", "anchors": ["include/message_filters/cache.hpp: getInterval, getSurroundingInterval, getElemBeforeTime, getElemAfterTime"]}
{"id": "C80", "title": "A Cache behind a TimeSequencer holds the most recent messages", "statement": "A Cache of size N connected to a TimeSequencer always holds exactly the last N messages the sequencer has released, in time order, and nothing newer has been evicted; if every message arrives less than the delay after its stamp and the sequencer's queue is unlimited, then when the timer fires every message whose stamp plus delay has been reached is in the cache unless the cache is full of messages at least as new.", "quantifier": "all delays, queue sizes, positive cache sizes, arrival orders and timer schedules with arbitrary clock readings", "why_tests_cant": "ranges over every arrival order and every schedule of the timer, with equal stamps and overflow in both filters", "anchors": ["include/message_filters/time_sequencer.hpp: add, dispatch", "include/message_filters/cache.hpp: add, connectInput", "include/message_filters/simple_filter.hpp: signalMessage"]}
{"id": "C81", "title": "ExactTime behind an InputAligner needs no queue and no arrival order", "statement": "An ExactTime synchronizer connected to an InputAligner outputs, with any queue size, exactly the sets whose stamp occurs among the dispatched messages of every input, in time order; if the aligner dropped nothing and holds nothing back, the sets depend only on which messages were added on each input, not on the order of arrival, the dispatch times, the periods or the queue sizes.", "quantifier": "any number of inputs, all queue sizes, timeouts and periods, all histories in which the stamps of an input are distinct, in any order", "why_tests_cant": "quantifies over pairs of arrival orders and over every interleaving with dispatch calls", "anchors": ["include/message_filters/input_aligner.hpp: addEvent, dispatchMessages, registerCallback", "include/message_filters/sync_policies/exact_time.hpp: add, checkTuple", "include/message_filters/synchronizer.hpp: add"]}
{"id": "C82", "title": "ExactTime behind one TimeSequencer per input", "statement": "With a TimeSequencer in front of every input of an ExactTime synchronizer, sets are output in time order whatever the arrival order, and with an unlimited queue they are exactly the sets whose stamp has been released on every input; if all messages are punctual and have been released, exactly the sets whose stamp was received on every input.", "quantifier": "any number of inputs, all delays, queue sizes, arrival orders and timer schedules; distinct stamps per input", "why_tests_cant": "ranges over every arrival order and every schedule of several independent timers", "anchors": ["include/message_filters/time_sequencer.hpp: add, dispatch", "include/message_filters/sync_policies/exact_time.hpp: add, checkTuple"]}
{"id": "C83", "title": "Approximate policies behind an InputAligner", "statement": "Behind an InputAligner, whatever the arrival order: ApproximateEpsilonTime with two inputs (or epsilon 0) finds every set of dispatched messages within epsilon that it should, and ApproximateTime without lower bounds respects its maximum interval and outputs exactly the sets an exhaustive search finds in the dispatched messages, as far as they are determined, as long as queues do not overflow.", "quantifier": "any number of inputs (two for a positive epsilon), all timeouts, periods, arrival orders and dispatch times; any age penalty at least 0 and any maximum interval", "why_tests_cant": "ranges over every arrival order and compares with an exhaustive search over all sets", "anchors": ["include/message_filters/input_aligner.hpp: dispatchMessages", "include/message_filters/sync_policies/approximate_epsilon_time.hpp: add", "include/message_filters/sync_policies/approximate_time.hpp: add, process"]}
{"id": "C84", "title": "Destroying and reconnecting a filter while its sources deliver", "statement": "A filter may be connected, connected anew and destroyed while other threads deliver messages through its sources: no schedule leads to a call into it once its destructor has returned; the destructor waits for callbacks that are still running, and does not block otherwise.", "quantifier": "all filter kinds, any number of inputs (also several inputs fed by one source), reconnections and threads, and all schedules", "why_tests_cant": "schedules; a use after destruction need not show in a test run", "anchors": ["include/message_filters/synchronizer.hpp: ~Synchronizer, disconnectAll, connectInput", "include/message_filters/input_aligner.hpp: ~InputAligner, setupDispatchTimer", "include/message_filters/time_sequencer.hpp: ~TimeSequencer, init", "include/message_filters/cache.hpp: ~Cache", "include/message_filters/signal1.hpp: addCallback, removeCallback, call", "src/connection.cpp: disconnect"]}
{"id": "C85", "title": "Constructing a filter with sources that are already delivering", "statement": "A TimeSynchronizer, Cache, TimeSequencer or InputAligner may be constructed with filters that deliver from other threads, and a Synchronizer may be connected to such filters after its construction: no call reaches it before it is completely constructed. A Synchronizer that is given the filters in its constructor fails, by assertion, exactly if one of its callbacks is entered before the constructor has finished.", "quantifier": "any number of inputs, reconnections and threads, and all schedules", "why_tests_cant": "schedules; the window is a few instructions long", "anchors": ["include/message_filters/synchronizer.hpp: Synchronizer, init, connectInput", "include/message_filters/time_synchronizer.hpp: TimeSynchronizer", "include/message_filters/time_sequencer.hpp: TimeSequencer", "include/message_filters/input_aligner.hpp: InputAligner", "include/message_filters/cache.hpp: Cache"]}
{"id": "C86", "title": "Python synchronizers fed by several threads", "statement": "TimeSynchronizer and ApproximateTimeSynchronizer may be fed by several threads: with well-formed messages, callbacks that do not raise and a queue size that is not negative no thread ever blocks forever and the result is that of delivering the messages one after the other in some order that keeps the order within each thread; with one thread per input, queues that are long enough and distinct stamps the output sets of a TimeSynchronizer do not depend on the schedule at all. A thread blocks forever only after some call raised, and then every later delivery blocks.", "quantifier": "all numbers of inputs and threads, all programs of the threads and all schedules of the statements of `add`", "why_tests_cant": "schedules", "anchors": ["src/message_filters/__init__.py: TimeSynchronizer.add, ApproximateTimeSynchronizer.add"]}
{"id": "C87", "title": "Registering callbacks on a Python filter while it outputs", "statement": "A Python filter may be used by several threads: while nobody registers, every output calls every callback once and never raises; while one thread registers, no registration is lost, the ids differ, and an output that returns has called exactly the callbacks registered when it began.", "quantifier": "all programs of registrations and outputs, all numbers of threads and all schedules", "why_tests_cant": "schedules of single dict operations", "anchors": ["src/message_filters/__init__.py: SimpleFilter.registerCallback, SimpleFilter.signalMessage"]}
{"id": "C88", "title": "Filters when the stamps of their inputs jump back", "statement": "When the stamps of all inputs jump back (a recording is played in a loop, a simulation is reset) a filter recovers: once every input has delivered queue_size messages with the new stamps, what the filter outputs depends only on these and on later messages, as for a new filter.", "quantifier": "all histories before the jump, all numbers of inputs, all queue sizes, all histories after it", "why_tests_cant": "the state left over can be anything a history can produce", "anchors": ["include/message_filters/sync_policies/exact_time.hpp: add, checkTuple, clearOldTuples", "include/message_filters/sync_policies/approximate_time.hpp: add, process", "include/message_filters/sync_policies/approximate_epsilon_time.hpp: add", "include/message_filters/input_aligner.hpp: add", "include/message_filters/time_sequencer.hpp: add", "include/message_filters/cache.hpp: add", "src/message_filters/__init__.py: TimeSynchronizer.add, ApproximateTimeSynchronizer.add"]}
{"id": "C89", "title": "ApproximateTime outputs a set as soon as it is determined", "statement": "ApproximateTime outputs a set exactly when the messages received so far, together with the configured inter-message lower bounds, determine it: never earlier, and never later. Larger lower bounds that the inputs respect only make the output earlier.", "quantifier": "all numbers of inputs, all histories of messages that respect the bounds, all futures that respect them, all age penalties", "why_tests_cant": "'determined' quantifies over everything that may still arrive", "anchors": ["include/message_filters/sync_policies/approximate_time.hpp: add, process, getVirtualTime, getVirtualCandidateBoundary"]}
{"id": "C90", "title": "Inputs that send in rounds are put together round by round", "statement": "If the inputs send in rounds (every input sends one message per round, the messages of a round are close to each other, rounds are apart), and no input runs ahead further than the queue size allows, then every synchronizer outputs exactly the rounds: one set for each, in order, none mixed, none lost, whatever the interleaving of the inputs. ExactTime, ApproximateEpsilonTime and the Python synchronizers output a round as soon as it is complete; ApproximateTime withholds at most the last complete round.", "quantifier": "all numbers of inputs, all rounds, all interleavings, all lags, all queue sizes, maximum intervals, epsilons, slops and age penalties", "why_tests_cant": "tests use one interleaving and one set of parameters; the exact margins (span, distance of rounds, queue size against lag) show only at the boundary", "anchors": ["include/message_filters/sync_policies/approximate_time.hpp: add, process", "include/message_filters/sync_policies/approximate_epsilon_time.hpp: add, process", "include/message_filters/sync_policies/exact_time.hpp: add, checkTuple, clearOldTuples", "src/message_filters/__init__.py: TimeSynchronizer.add, ApproximateTimeSynchronizer.add"]}
{"id": "C91", "title": "ApproximateTime's warnings about its inputs", "statement": "ApproximateTime warns that messages of an input arrived out of order, or closer than the lower bound set for it, if and only if that happened; it says so once, with the right times; the warnings do not change what is output.", "quantifier": "all numbers of inputs, configurations, histories; all numbers of synchronizers of one type in a process", "why_tests_cant": "'if and only if' ranges over all histories; whether a violation is noticed depends on where the synchronizer happens to keep the message before", "anchors": ["include/message_filters/sync_policies/approximate_time.hpp: checkInterMessageBound, add, setInterMessageLowerBound"]}
{"id": "C92", "title": "Python Subscriber: arguments, settings, forwarding, attributes", "statement": "A Python Subscriber takes the arguments that rclpy takes for a subscription, subscribes with exactly these settings, gives every message received to every callback registered on it, and serves the attributes of its subscription.", "quantifier": "all lists of positional and keyword arguments, all histories of registrations and messages, all attribute names", "why_tests_cant": "ranges over all ways to pass the arguments; tests use one", "anchors": ["src/message_filters/__init__.py: Subscriber.__init__, callback, getTopic, __getattr__; SimpleFilter.signalMessage"]}
{"id": "C93", "title": "Threads do not block in pipelines of Python filters", "statement": "In a pipeline of Python filters whose synchronizers are not fed back with their own output, several threads can deliver messages without any of them ever blocking forever, also if a callback raises an exception.", "quantifier": "all networks of Subscriber, Cache, TimeSynchronizer and ApproximateTimeSynchronizer, all callbacks, all deliveries by any number of threads, all exceptions, all schedules", "why_tests_cant": "ranges over all networks, exceptions and schedules", "anchors": ["src/message_filters/__init__.py: TimeSynchronizer.add, ApproximateTimeSynchronizer.add, SimpleFilter.signalMessage"]}
{"id": "C94", "title": "ApproximateTime keeps producing sets as long as every input keeps delivering", "statement": "Let the history be a sequence of windows in each of which every input delivers a message newer than everything delivered before the window, these messages being within the maximum interval of each other, and at most m messages; let each input be in time order. With room for 5 m messages per input no queue ever overflows, at least one set is output in any two successive windows, and after four windows there is an output set newer than everything before them.", "quantifier": "all numbers of inputs, all age penalties and message bounds, all interleavings and histories of unbounded length", "why_tests_cant": "a liveness and queue-sizing property over unbounded histories: a test sees only a finite run of one interleaving", "anchors": ["include/message_filters/sync_policies/approximate_time.hpp: ApproximateTime::add, ApproximateTime::process"]}
{"id": "C95", "title": "Exactly which sets a bounded ExactTime queue loses", "statement": "Let every input deliver in strictly increasing stamp order and let the queue size be q > 0. A set of messages with equal stamps, one of each input, is output if and only if fewer than q different newer stamps had been delivered, on any inputs, when its last message arrived. Consequently a larger queue never loses more, and if there is this much room for every set the output is that of an unlimited queue.", "quantifier": "all numbers of inputs, queue sizes, streams and interleavings of unbounded length", "why_tests_cant": "an exact characterisation over all interleavings; a test shows that a set is lost or not in one of them", "anchors": ["include/message_filters/sync_policies/exact_time.hpp: ExactTime::add, ExactTime::checkTuple"]}
{"id": "C96", "title": "Exactly which sets the bounded queues of the Python TimeSynchronizer lose, compared to C++", "statement": "Let every input deliver in strictly increasing stamp order, let no callback raise and let the queue size be q >= 0. A set is output by the Python TimeSynchronizer if and only if each single input had delivered fewer than q messages newer than it when its last message arrived. It therefore outputs every set the C++ ExactTime synchronizer with the same queue size outputs; with two inputs both output the same sets, with three the C++ one may lose more.", "quantifier": "all numbers of inputs, queue sizes, streams and interleavings of unbounded length", "why_tests_cant": "an exact characterisation over all interleavings, and a comparison of two programs on all of them", "anchors": ["src/message_filters/__init__.py: TimeSynchronizer.add", "include/message_filters/sync_policies/exact_time.hpp: ExactTime::add, ExactTime::checkTuple"]}
{"id": "C97", "title": "The queue size ApproximateEpsilonTime needs", "statement": "Let every input of an ApproximateEpsilonTime synchronizer with epsilon >= 0 deliver in time order, and let at every moment each input have delivered at most q messages that no message of another given input has left behind by more than epsilon. Then no queue of size q overflows: the output and the messages still waiting are the same for all such queue sizes and interleavings, and every pair of messages within epsilon (with two inputs) and every set with equal stamps (any number of inputs) has a member in an output set.", "quantifier": "all numbers of inputs, epsilons, queue sizes, streams and interleavings of unbounded length", "why_tests_cant": "the bound must hold at every moment of every interleaving of streams of any length", "anchors": ["include/message_filters/sync_policies/approximate_epsilon_time.hpp: ApproximateEpsilonTime::add, process"]}
{"id": "C98", "title": "ApproximateTime passes over no possible set without a reason", "statement": "Let every input of an ApproximateTime synchronizer be strictly increasing and let no queue overflow. Then every output set is newer on every input than the sets before it, and the output is maximal: any choice of one message per input that spans at most the maximum interval, and that is older than some output set on some input, shares a message with an output set or crosses one (is newer on one input and older on another). A possible set that conflicts with no output set is newer than the whole output, and either all its messages are still held or it conflicts with a set as soon as another one is output. While every input keeps delivering (C94), every possible set conflicts with an output set at the latest four windows after its messages.", "quantifier": "all numbers of inputs, configurations (age penalty, lower bounds, maximum interval), histories of unbounded length and choices of one message per input", "why_tests_cant": "it excludes any missed set over every history and every choice of messages", "anchors": ["include/message_filters/sync_policies/approximate_time.hpp: ApproximateTime::add, process, makeCandidate, publishCandidate"]}
{"id": "C99", "title": "The queue size an ApproximateTime synchronizer needs", "statement": "Let every input of an ApproximateTime synchronizer be in time order, the maximum interval M not negative and the age penalty not negative. If at every moment, for every two different inputs, one has delivered at most queue_size messages that are not more than M behind the newest stamp of the other (at most queue_size messages altogether if the other has delivered nothing yet), and no input delivers more than queue_size messages within any window of length M, then no queue ever overflows, and the synchronizer outputs the same sets as with any larger queue size. Neither condition can be dropped.", "quantifier": "all numbers of inputs, configurations, histories of unbounded length and queue sizes", "why_tests_cant": "a sufficient queue size has to be sufficient for every interleaving and rate of the inputs", "anchors": ["include/message_filters/sync_policies/approximate_time.hpp: ApproximateTime::add, process, publishCandidate"]}
{"id": "C100", "title": "Without tolerance, approximate synchronization is exact synchronization", "statement": "Let every input be strictly increasing and let no input run ahead of another one by more than queue_size messages. Then ApproximateTime with a maximum interval of zero and ApproximateEpsilonTime with an epsilon of zero have output, after every call, exactly the sets with equal stamps that can be made of the messages delivered, in time order; this is the sequence ExactTime with unlimited queues outputs for the same streams in any interleaving. In Python an ApproximateTimeSynchronizer with the smallest useful slop (one nanosecond) behaves exactly like a TimeSynchronizer for every history of messages with headers, in any order, of any queue size, whatever callbacks raise.", "quantifier": "all numbers of inputs, age penalties and lower bounds, interleavings and histories of unbounded length; in Python all histories, queue sizes and raising callbacks", "why_tests_cant": "it compares different algorithms over every history", "anchors": ["include/message_filters/sync_policies/approximate_time.hpp: ApproximateTime::add, process", "include/message_filters/sync_policies/approximate_epsilon_time.hpp: ApproximateEpsilonTime::add, process", "include/message_filters/sync_policies/exact_time.hpp: ExactTime::add", "src/message_filters/__init__.py: TimeSynchronizer.add, ApproximateTimeSynchronizer.add"]}
{"id": "C101", "title": "The queue size a Python ApproximateTimeSynchronizer needs", "statement": "Let every input of a Python ApproximateTimeSynchronizer deliver in time order, and let at every moment, for every two different inputs, one have delivered at most queue_size (> 0) messages that are not behind the newest message of the other by the slop or more (at most queue_size messages altogether if the other has delivered nothing yet). Then the queue size makes no difference: with any other queue size that satisfies the same condition the same sets are output, in the same order, and the synchronizer is locked or usable alike, whatever callbacks raise. If the inputs are strictly increasing and no callback raises, every choice of one delivered message per input whose stamps differ by less than the slop has a member in an output set.", "quantifier": "all numbers of inputs, slops, queue sizes, raising callbacks, messages with and without header and histories of unbounded length", "why_tests_cant": "a sufficient queue size has to be sufficient for every interleaving and rate of the inputs", "anchors": ["src/message_filters/__init__.py: ApproximateTimeSynchronizer.add"]}
{"id": "C102", "title": "What an InputAligner with well-behaved inputs outputs, and when", "statement": "Call the inputs of an InputAligner well-behaved if periods are set before the first message of their input, every input delivers in order with at least its period between messages, stamps are between 0 and Time::max, no dispatch happens before the first message of an input that delivers anything, and no input is overdue by the timeout at a dispatch. Then nothing is dropped, and every dispatch outputs exactly the messages that are due: those that precede everything any input may still deliver, i.e. whose stamp is smaller than the last stamp of every input plus its period (or equal, if the input is not an earlier one). They are output in the order of stamps, equal stamps in the order of the inputs. So the output depends only on what each input delivered, not on how the inputs were interleaved nor on when messages were dispatched; and the queue of an input is no longer than the number of its messages that some input may still precede.", "quantifier": "all numbers of inputs, periods, timeouts, messages and histories of addEvent, setInputPeriod and dispatchMessages of unbounded length", "why_tests_cant": "the output has to be the same for every interleaving and every sequence of timer ticks", "anchors": ["include/message_filters/input_aligner.hpp: InputAligner, dispatchMessages, addEvent, getFirstSampleIdx"]}
{"id": "C103", "title": "What a TimeSequencer with punctual messages outputs, and the queue size it needs", "statement": "Let every message (with a system-time stamp that is not negative) reach a TimeSequencer before its delay has passed on the clock, i.e. before a timer call read a time of at least its stamp plus the delay, and let there never be more than queue_size messages whose delay has not passed (no condition if queue_size is 0). Then none is lost: at any time exactly the messages whose delay had passed at some timer call have been output, in time order and equal stamps in order of arrival, and the others are queued. So the queue size makes no difference, and the output at a clock time depends only on the messages, not on the order in which they arrived nor on when the timer fired before.", "quantifier": "all delays, queue sizes, messages and histories of arrivals and timer calls of unbounded length; the clock does not change while a timer call runs", "why_tests_cant": "no loss has to hold for every arrival order and every sequence of timer calls", "anchors": ["include/message_filters/time_sequencer.hpp: TimeSequencer::add, dispatch"]}
{"id": "C104", "title": "The queue size that inputs with known rates and delays need", "statement": "Let the stamps of every input be at least a period p apart, let every message arrive at most D after its stamp, and let messages be delivered in the order of their arrival. For exact synchronization a queue size of more than D/p loses no set in Python; in C++ it is enough if all inputs share their stamps, and otherwise more than (n-1) times floor(D/p) is. If moreover no input pauses for more than G and all start within G, then for ApproximateEpsilonTime a queue size of more than (D+G+epsilon)/p is enough, for ApproximateTime more than (D+G+max interval)/p, for the Python ApproximateTimeSynchronizer more than (D+G+slop-1)/p: a larger queue size gives the same sets, and (except for ApproximateTime) every match has a member in an output set.", "quantifier": "all numbers of inputs, periods, gaps, delays, tolerances, queue sizes, arrival times and histories of unbounded length", "why_tests_cant": "the bound has to hold for every combination of stamps and delays within the limits and at every moment of an endless history", "anchors": ["include/message_filters/sync_policies/exact_time.hpp: ExactTime::add, checkTuple", "include/message_filters/sync_policies/approximate_epsilon_time.hpp: ApproximateEpsilonTime::add", "include/message_filters/sync_policies/approximate_time.hpp: ApproximateTime::add", "src/message_filters/__init__.py: TimeSynchronizer.add, ApproximateTimeSynchronizer.add"]}
{"id": "C105", "title": "Behind an InputAligner or a TimeSequencer the arrival order does not matter", "statement": "Connect anything deterministic (other filters, or callbacks with a state of their own) to an InputAligner whose inputs are well-behaved (C102), or to a TimeSequencer with punctual messages and a sufficient queue size (C103). Its state after a dispatch, or after the timer fired at time c, depends only on what each input delivered: not on interleaving, earlier dispatches or timer calls, timeout or queue size. So ExactTime behind such an aligner outputs, with any queue size, exactly the equal-stamp sets of messages that are due; a Cache of size N behind such a sequencer holds the N newest due messages; ExactTime behind one such sequencer per input outputs exactly the equal-stamp sets of due messages.", "quantifier": "all second filters, all numbers of inputs, periods, timeouts, delays, queue and cache sizes and histories of unbounded length within the conditions of C102 and C103", "why_tests_cant": "independence of the arrival order has to hold for every pair of histories and every second filter", "anchors": ["include/message_filters/input_aligner.hpp: dispatchMessages, registerCallback", "include/message_filters/time_sequencer.hpp: add, dispatch", "include/message_filters/simple_filter.hpp: signalMessage", "include/message_filters/cache.hpp: add", "include/message_filters/sync_policies/exact_time.hpp: add"]}
{"id": "C106", "title": "How far back the queues of a Python ApproximateTimeSynchronizer have to reach", "statement": "Whenever a message is delivered, let fewer than queue_size newer ones of its own input have come before it, and let every message of another input that is within the slop of it be among the queue_size newest of that input. Then nothing that matters is lost: every other queue size with this property gives the same sets (also if callbacks raise), and if stamps on an input are distinct, every choice of one message per input within the slop has a member in an output set. Inputs need not be in time order, may pause and may run ahead of each other by any number of messages. If stamps of an input are at least p apart, messages arrive within D after their stamp and are delivered in order of arrival, the condition holds as soon as D + slop - 1 < queue_size * p, and this bound is sharp.", "quantifier": "all numbers of inputs, slops, queue sizes, messages, callbacks that raise and histories of unbounded length", "why_tests_cant": "loss would have to be excluded for every interleaving, every delay within the bound and every position in an endless history", "anchors": ["src/message_filters/__init__.py: ApproximateTimeSynchronizer.add"]}
{"id": "C107", "title": "How far back the queues of an ApproximateEpsilonTime synchronizer with two inputs have to reach", "statement": "Take an ApproximateEpsilonTime synchronizer with two inputs that deliver in time order. Whenever a message is delivered, let each message of the other input that is within epsilon of it be among the last queue_size ones of that input. Then, although queues may overflow, the sets that are output depend on nothing but what each input delivers (any other queue size or interleaving with this property gives the same sets), and each pair of messages within epsilon has a member in an output set. If stamps of an input are at least p apart, messages arrive within D after their stamp and are delivered in order of arrival, the condition holds as soon as D + epsilon < queue_size * p, and this bound is sharp. With three inputs the claim is false: a larger queue can lose a set that a smaller one outputs.", "quantifier": "all epsilons, queue sizes, messages, interleavings and histories of unbounded length, for two inputs", "why_tests_cant": "loss would have to be excluded for every interleaving, every delay within the bound and every position in an endless history", "anchors": ["include/message_filters/sync_policies/approximate_epsilon_time.hpp: ApproximateEpsilonTime::add, process, erase_old_events_if_on_sync_with_ts"]}
{"id": "C108", "title": "Inputs whose stamps are far apart: exactly the matching sets are output", "statement": "Let the stamps of each input be more than two tolerances apart (tolerance: epsilon, maximum interval, or slop - 1 ns). Inputs may skip messages and the interleaving is arbitrary. Then each message belongs to at most one matching set (one message per input, within the tolerance), and the approximate synchronizers, for any number of inputs, output exactly these sets, each once: ApproximateEpsilonTime all of them if every message of another input within epsilon of a new one is among the last queue_size of its input; the Python ApproximateTimeSynchronizer likewise, even if messages are out of order; ApproximateTime all but at most one, if no input runs ahead by more than queue_size messages, and the oldest message of the missing set is the last one of its input so far. The three therefore agree. At a distance of exactly two tolerances all three claims fail.", "quantifier": "all numbers of inputs, tolerances, queue sizes, age penalties >= 0, messages, interleavings and histories of unbounded length", "why_tests_cant": "that nothing but the stamps decides which sets are output is a claim about every interleaving and every pattern of missing messages", "anchors": ["include/message_filters/sync_policies/approximate_epsilon_time.hpp: ApproximateEpsilonTime::add, process", "include/message_filters/sync_policies/approximate_time.hpp: ApproximateTime::add, process, publishCandidate", "src/message_filters/__init__.py: ApproximateTimeSynchronizer.add"]}
{"id": "C109", "title": "ApproximateTime outputs contiguous sets of minimal size: a complete description of its output", "statement": "Call a choice of one message per input possible if it spans at most the maximum interval, and contiguous (to the previous output set) if it is newer than that set on every input and no possible set lies strictly between. For strictly increasing inputs and queues that do not overflow, each output set is the contiguous set of least cost (1 + age_penalty) * latest - earliest among all messages received or still to come, and of several contiguous sets with this cost the one with the oldest messages on every input. This determines the whole sequence: what has been output is the beginning of the only sequence with this property, whatever the future brings, and with two inputs a set is output exactly when it is the same for every future that respects the lower bounds. Without a limit on the interval, contiguous means taking the first message after the previous set on some input.", "quantifier": "all numbers of inputs, maximum intervals, age penalties >= 0, lower bounds, histories and futures of unbounded length with strictly increasing inputs", "why_tests_cant": "that a set has the least cost of all contiguous sets, including those of messages that have not arrived yet, ranges over all sets and all futures", "anchors": ["include/message_filters/sync_policies/approximate_time.hpp: ApproximateTime::process, makeCandidate, recover, publishCandidate, getVirtualCandidateBoundary, setAgePenalty, setMaxIntervalDuration, setInterMessageLowerBound"]}
{"id": "C110", "title": "How many sets the approximate synchronizers output: ApproximateEpsilonTime with two inputs as many as possible", "statement": "Take an ApproximateEpsilonTime synchronizer with two inputs that deliver in time order, with queues that reach back far enough (C107). At every moment it has output as many sets as there are pairs in any way of putting the messages added so far together in pairs within epsilon, each message used once; this includes ways that let pairs cross or know all messages in advance. So no other queue size and no ApproximateTime or Python ApproximateTimeSynchronizer of the same tolerance outputs more sets for the same inputs, and the k-th set is at least as old, on both inputs, as the k-th set of ApproximateTime or of any other way that keeps the order. ApproximateTime guarantees no share of them: for every k there are inputs with k + 1 possible sets of which it outputs at most one. A Python ApproximateTimeSynchronizer with n inputs, distinct stamps and queues that reach back far enough (C106) outputs at least an n-th of the sets that are possible, and for two inputs this is sharp. With three inputs ApproximateEpsilonTime can output no set although one is possible.", "quantifier": "all epsilons, slops, queue sizes, messages, interleavings and histories of unbounded length, and all ways of pairing the messages", "why_tests_cant": "that no pairing has more pairs ranges over all pairings (exponentially many) of all histories", "anchors": ["include/message_filters/sync_policies/approximate_epsilon_time.hpp: ApproximateEpsilonTime::add, process, check_all_timestamp_within_epsilon", "include/message_filters/sync_policies/approximate_time.hpp: ApproximateTime", "src/message_filters/__init__.py: ApproximateTimeSynchronizer.add"]}
{"id": "C111", "title": "ApproximateTime after messages were lost to a full queue", "statement": "When a message makes the queue of an ApproximateTime input overflow, the oldest message held for that input is lost. From then on, until the next loss, the synchronizer outputs exactly the canonical sets (C33, C34, C109) of the messages it held then followed by the later ones, after passing over some first messages: only messages of other inputs, and only ones that are not newer than the oldest message still held for an input that has lost one. If all later messages are newer than those held at the loss, only messages held at the loss are passed over. In general the passing over need not end: for two inputs and every queue size, if the second input runs queue_size messages ahead and each of its messages is added before the first input's message of the same stamp, nothing is ever output, although the exactly matching message is in the queue each time.", "quantifier": "all numbers of inputs, queue sizes, intervals, age penalties, messages and histories of unbounded length with any number of losses", "why_tests_cant": "the loss can happen in any state of the search, the statement compares all later outputs with an independent search, and the starvation lasts for ever", "anchors": ["include/message_filters/sync_policies/approximate_time.hpp: ApproximateTime::add (lines 165-201), process (lines 508-533), has_dropped_messages_, getCandidateEnd"]}
{"id": "C112", "title": "The queue size needed when messages arrive in time order over all inputs", "statement": "Let the messages of all inputs together be delivered in time order, as behind an InputAligner or from a recording. For two-input ApproximateEpsilonTime a queue size that holds the messages of one input in any interval of length epsilon is enough, however long an input pauses: every larger queue size gives the same output, every pair within epsilon has a member in an output set, and no way of pairing the messages has more pairs. The same holds behind an InputAligner if the messages given to it, in any order, have that density. For the Python ApproximateTimeSynchronizer, with any number of inputs, the messages of one input in any interval of length slop - 1 must fit. For ApproximateEpsilonTime with three inputs a larger queue can lose a set. For ApproximateTime no queue size is enough: for every queue_size there are two inputs delivered in time order, with stamps more than twice the maximum interval apart, from which nothing is output, while one more place gives a set. If no input pauses for more than G, room for the messages of one input in any interval of length G plus the maximum interval is enough for ApproximateTime. If the stamps of each input are more than two tolerances apart, one place is enough for ApproximateEpsilonTime and the Python synchronizer with any number of inputs, and exactly the matching sets are output.", "quantifier": "all queue sizes, tolerances, messages and histories of unbounded length delivered in time order", "why_tests_cant": "the conditions range over all histories and larger queue sizes, the pairing bound over all ways of pairing the messages, and the negative result over all queue sizes", "anchors": ["include/message_filters/sync_policies/approximate_epsilon_time.hpp: add, process, eraseOldMessages", "include/message_filters/sync_policies/approximate_time.hpp: add (lines 165-201), process", "include/message_filters/input_aligner.hpp: add, dispatchMessages", "src/message_filters/__init__.py: ApproximateTimeSynchronizer.add"]}
{"id": "C113", "title": "Messages without a header", "statement": "A message whose type has no std_msgs header counts as sent at time 0 of ROS time. If no message has a header: ExactTime outputs a set whenever every input has delivered since the last set, made of the newest message of each input, whatever the queue size; ApproximateTime and ApproximateEpsilonTime put the k-th messages of all inputs together, at once, as long as no input is more than queue_size messages ahead of another; a Cache holds the last messages in the order of arrival; every add of a TimeSequencer throws; an InputAligner whose inputs all have a positive period outputs everything at each dispatch, but without periods it outputs, once an input has had a message output, no message of any later input ever again and keeps them all. LatestTime never looks at the messages. If only one input has no header, ExactTime outputs nothing unless another has stamp 0, and ApproximateEpsilonTime nothing unless another is within epsilon of 0.", "quantifier": "all numbers of inputs, queue sizes, tolerances, periods, timeouts and histories of unbounded length", "why_tests_cant": "the descriptions hold for every history of messages; that an input is starved for ever is a statement about all continuations", "anchors": ["include/message_filters/message_traits.hpp: HasHeader, TimeStamp", "include/message_filters/sync_policies/exact_time.hpp: add", "include/message_filters/sync_policies/approximate_time.hpp: add, process", "include/message_filters/sync_policies/approximate_epsilon_time.hpp: add, process", "include/message_filters/sync_policies/latest_time.hpp: add", "include/message_filters/cache.hpp: add, getInterval", "include/message_filters/time_sequencer.hpp: add", "include/message_filters/input_aligner.hpp: add, dispatchMessages"]}
{"id": "C114", "title": "One source connected to every input", "statement": "If all inputs of a synchronizer are fed by one source, directly or through filters that pass messages on at once, then ExactTime, ApproximateEpsilonTime (epsilon at least 0, queue size at least 1), ApproximateTime (any configuration) and the Python synchronizers (queue size at least 1; slop above 0) output every message together with itself, at once and in the order of arrival, whatever the stamps, and keep nothing. LatestTime does not: fed by a periodic source it outputs, for every message but the first, the new message on input 0 together with the previous message on all other inputs.", "quantifier": "all numbers of inputs, all message sequences of unbounded length with arbitrary stamps, all orders in which a message reaches the inputs, all configurations within the stated bounds; for LatestTime all periods, delays between the inputs and rate configurations, with exact arithmetic", "why_tests_cant": "the claim is about every sequence of stamps, also repeated and decreasing ones, and every order of delivery to the inputs", "anchors": ["include/message_filters/synchronizer.hpp: connectInput", "include/message_filters/time_synchronizer.hpp: TimeSynchronizer", "include/message_filters/sync_policies/exact_time.hpp: add, checkTuple", "include/message_filters/sync_policies/approximate_time.hpp: add, process", "include/message_filters/sync_policies/approximate_epsilon_time.hpp: add, process", "include/message_filters/sync_policies/latest_time.hpp: add, find_pivot", "src/message_filters/__init__.py: TimeSynchronizer.add, ApproximateTimeSynchronizer.add"]}
{"id": "C115", "title": "An input that delivers nothing for a while", "statement": "If an input of a synchronizer has not delivered anything yet, or everything it delivered has left the synchronizer, then nothing is output until it delivers again, and how long that takes does not matter: what is output afterwards depends, for ApproximateEpsilonTime and the Python synchronizers, only on the last queue-size messages every other input delivered meanwhile; for ApproximateTime on one message more per input, because it remembers that a message was dropped; for ExactTime (at the start) only on the messages with the queue-size latest stamps.", "quantifier": "all numbers of inputs, all histories before, during and after the silence, of unbounded length, all queue sizes and configurations; for the Python synchronizers silence at the start and strictly increasing stamps per input during it", "why_tests_cant": "a node may wait for hours before the last driver starts; the claim is about histories of any length before that and everything that may be delivered afterwards", "anchors": ["include/message_filters/sync_policies/exact_time.hpp: add, checkTuple", "include/message_filters/sync_policies/approximate_time.hpp: add", "include/message_filters/sync_policies/approximate_epsilon_time.hpp: add", "src/message_filters/__init__.py: TimeSynchronizer.add, ApproximateTimeSynchronizer.add"]}
{"id": "C116", "title": "LatestTime goes on when its fastest input stops", "statement": "If the input that triggers the output of a LatestTime synchronizer stops, the synchronizer goes on with the fastest of the inputs that still deliver.", "quantifier": "all numbers of inputs, all arrival times of unbounded length, all rate configurations (smoothing factors between 0 and 1), with exact arithmetic, for inputs that first arrive in order", "why_tests_cant": "whether an input gives way depends on the whole history of its arrival times, and that nothing is output any more is a statement about all future messages", "anchors": ["include/message_filters/sync_policies/latest_time.hpp: find_pivot, Rate::compute_hz, add"]}
{"id": "C117", "title": "InputAligner holds a message for less than the timeout, measured in stamps", "statement": "After dispatchMessages no message is still queued that is older by the timeout or more than any message ever added: a message that is not dropped on arrival is output by the next dispatchMessages at which a message at least the timeout newer has been added to any input, whether or not the other inputs deliver. If the messages of an input are at least d apart, its queue then holds at most 1 + (timeout - 1)/d messages (in nanoseconds). Only stamps count: once dispatchMessages has returned, calling it again, however often and however much later, changes nothing.", "quantifier": "all numbers of inputs, all timeouts, all histories of messages (in any order), period changes and dispatches of unbounded length, all stamps below Time::max", "why_tests_cant": "the bound is over all histories in which some inputs are silent, and that time alone releases nothing is a statement about every later call", "anchors": ["include/message_filters/input_aligner.hpp: dispatchMessages, dispatchFirstMessage, add, firstTimeStamp"]}
{"id": "C118", "title": "When the answers of a Cache about the past are final", "statement": "If messages reach a Cache in time order, then once a message newer than b is cached, getInterval(a, b) returns every message with a stamp in [a, b] that is ever added, and gives the same answer later, as long as the cache reaches back beyond a. Behind a TimeSequencer whose messages arrive before their delay has passed, in any order, this holds for every b at least the delay before the timer's time. Behind an InputAligner with a cache on every output it holds for all the caches as soon as any output has delivered a message newer than b; and after dispatchMessages, if a message at least the timeout newer than b has been added to any input and the input has had nothing dropped, the answer is exactly the messages added with stamps in the interval. The same holds for getElemBeforeTime(t) once a message newer than t is cached (behind an InputAligner, once any output has delivered a message not older than t) and for getElemAfterTime(t) once it is not null, while the oldest cached stamp is before t (not after t, respectively).", "quantifier": "all intervals, cache sizes, delays, timeouts, numbers of inputs, arrival orders and histories of unbounded length, and all continuations of them", "why_tests_cant": "that an answer is final is a statement about all messages that can still arrive", "anchors": ["include/message_filters/cache.hpp: getInterval, getOldestTime, getLatestTime, add", "include/message_filters/time_sequencer.hpp: add, dispatch", "include/message_filters/input_aligner.hpp: dispatchMessages"]}
{"id": "C119", "title": "Approximate policies behind one TimeSequencer per input", "statement": "Connect one TimeSequencer to each input of a Synchronizer with an approximate policy. Every call returns. Whatever the order in which messages arrive, as long as the synchronizer's queues do not overflow: with ApproximateEpsilonTime and two inputs (or epsilon 0, or equal stamps) every set of released messages within epsilon has a member in an output set; with ApproximateTime (no lower bounds) the output is an initial part of the sets an exhaustive search finds in the released messages and contains all sets they determine. If messages arrive before their delay has passed and the sequencers' queues suffice, the same holds with all messages received that are due, and two arrival orders of the same messages give outputs of which one is an initial part of the other.", "quantifier": "all numbers of inputs, delays, queue sizes, epsilons, age penalties and maximum intervals, all arrival orders, timer calls and histories of unbounded length", "why_tests_cant": "a test fixes one arrival order and one interleaving with the timers", "anchors": ["include/message_filters/time_sequencer.hpp: add, dispatch", "include/message_filters/sync_policies/approximate_time.hpp: add, process", "include/message_filters/sync_policies/approximate_epsilon_time.hpp: add, process"]}
{"id": "C120", "title": "A Subscriber in a Chain", "statement": "A Subscriber can be a filter of a Chain; it ignores what is added to it. The chain then outputs exactly what a chain starting with the Subscriber would output with nothing added to it: messages added to the chain, and messages from the filters before the Subscriber, never come out, whatever filters are added later. If the filters behind it pass every message, the chain outputs the messages the Subscriber receives, each once and in order. Adding messages to a chain that starts with a Subscriber has no effect.", "quantifier": "all filters and filter states, any filters before and after the Subscriber, all histories of adding filters, adding messages and filters outputting by themselves", "why_tests_cant": "the filters and the interleaving of their outputs are arbitrary; tests use one Subscriber with one or two PassThroughs", "anchors": ["include/message_filters/subscriber.hpp: connectInput, add", "include/message_filters/chain.hpp: addFilter, add"]}
{"id": "C121", "title": "Only differences between stamps matter, and contents never do", "statement": "Replacing the contents of the messages at will, and moving all stamps by the same amount, changes nothing but the messages themselves in what the approximate policies (ApproximateTime, ApproximateEpsilonTime, Python ApproximateTimeSynchronizer) do: the same sets in the same order, the same warnings, the same failures. For ExactTime, the Python TimeSynchronizer and Cache (with its queries moved along) it is enough that the new stamps are in the same order as the old ones. For the approximate policies the order alone is not enough.", "quantifier": "all replacements of messages, all offsets, all order preserving maps of stamps, all numbers of inputs, all parameters, all histories of calls including parameter changes", "why_tests_cant": "a statement about pairs of unbounded histories; tests use small fixed stamps, a deployed system has stamps around 1.7e18", "anchors": ["include/message_filters/sync_policies/approximate_time.hpp: ApproximateTime::add, process", "include/message_filters/sync_policies/approximate_epsilon_time.hpp: ApproximateEpsilonTime::add, process", "include/message_filters/sync_policies/exact_time.hpp: ExactTime::add, checkTuple", "include/message_filters/cache.hpp: Cache::add, getInterval, getSurroundingInterval, getElemBeforeTime, getElemAfterTime", "src/message_filters/__init__.py: TimeSynchronizer.add, ApproximateTimeSynchronizer.add"]}
{"id": "C122", "title": "Which input has which number does not matter", "statement": "If the filters are connected in another order (the inputs numbered differently), ExactTime, ApproximateEpsilonTime and the Python TimeSynchronizer output the same sets in the same order, with the messages of each set under their new positions, whatever the stamps and queue sizes; ExactTime also drops and replaces the same messages. ApproximateTime, for in-order messages, valid inter-message bounds (renumbered with the inputs) and queues that do not overflow, chooses the same sets; with two inputs and positive bounds it also outputs them at the same calls, with three inputs one numbering may be ahead of the other. The Python ApproximateTimeSynchronizer may match different messages.", "quantifier": "all numbers of inputs, all permutations of them, all queue sizes, intervals and age penalties, all histories of calls, all sets of raising Python callbacks", "why_tests_cant": "a statement about pairs of unbounded histories and all permutations; the code treats input 0 specially in several places (ExactTime reads the stamp from it, the oldest of equals is the first), tests use one order", "anchors": ["include/message_filters/sync_policies/exact_time.hpp: ExactTime::add, checkTuple", "include/message_filters/sync_policies/approximate_epsilon_time.hpp: ApproximateEpsilonTime::add, process", "include/message_filters/sync_policies/approximate_time.hpp: ApproximateTime::add, process", "src/message_filters/__init__.py: TimeSynchronizer.add, ApproximateTimeSynchronizer.add"]}
{"id": "C123", "title": "Synchronizing again what has been synchronized changes nothing", "statement": "If the sets a synchronizer has output are sent on, set by set and within each set in any order, to a second synchronizer of the same kind (any queue size of at least one, an epsilon or slop not smaller than the first), the second outputs exactly the same sets in the same order, for ExactTime, ApproximateEpsilonTime and both Python synchronizers, whatever the first one received. ApproximateTime may output different sets the second time; it outputs the same ones, except that it may withhold the last, when every set spans at most w, the sets are at least w apart, and w is at most the maximum interval.", "quantifier": "all numbers of inputs, all histories received by the first synchronizer, all parameters of both, all orders of the messages within each set", "why_tests_cant": "a statement about pairs of unbounded histories of two objects and all permutations within each set", "anchors": ["include/message_filters/sync_policies/exact_time.hpp: ExactTime::add, checkTuple", "include/message_filters/sync_policies/approximate_epsilon_time.hpp: ApproximateEpsilonTime::add, process", "include/message_filters/sync_policies/approximate_time.hpp: ApproximateTime::add, process", "src/message_filters/__init__.py: TimeSynchronizer.add, ApproximateTimeSynchronizer.add"]}
{"id": "C124", "title": "An additional input only takes sets away", "statement": "Compare a synchronizer with one connected to only some of its inputs, with the same parameters. For ExactTime and the Python TimeSynchronizer, with every input delivering in strict time order, the sets of the larger one, restricted to the inputs of the smaller, are output by the smaller in the same order, whatever the queue size; so an additional input takes sets away and never adds or changes any. For ApproximateEpsilonTime this holds for the number of sets when the smaller has two inputs whose queues reach back far enough, and fails for three. For ApproximateTime and the Python ApproximateTimeSynchronizer an additional input may lead to more sets.", "quantifier": "all numbers of inputs, all choices of some of them, all queue sizes and epsilons, all histories of in-order calls", "why_tests_cant": "a statement about pairs of unbounded histories on objects of different type, all queue sizes and all choices of inputs", "anchors": ["include/message_filters/sync_policies/exact_time.hpp: ExactTime::add, checkTuple, clearOldTuples", "include/message_filters/sync_policies/approximate_epsilon_time.hpp: ApproximateEpsilonTime::add, process", "include/message_filters/sync_policies/approximate_time.hpp: ApproximateTime::add, process", "src/message_filters/__init__.py: TimeSynchronizer.add, ApproximateTimeSynchronizer.add"]}
{"id": "C125", "title": "A lost message costs only the sets it belongs to", "statement": "If messages are lost before they reach a synchronizer, ExactTime and the Python TimeSynchronizer, with every input in strict time order, still output every set of which no message was lost, in the same order, whatever the queue size; with an unlimited ExactTime queue they output nothing else. With two inputs in time order and queues that reach back far enough, k lost messages cost ApproximateEpsilonTime at most k sets and never gain it one, and the k-th set is never newer than with the loss. With stamps far apart compared with the tolerance, ApproximateEpsilonTime outputs exactly the sets of which nothing was lost, and ApproximateTime all of them but possibly one it still withholds. The Python ApproximateTimeSynchronizer with three inputs can lose two sets with one message.", "quantifier": "all numbers of inputs, all in-order histories, all subsets of lost messages, all queue sizes and tolerances", "why_tests_cant": "a statement about pairs of unbounded histories and all possible losses", "anchors": ["include/message_filters/sync_policies/exact_time.hpp: ExactTime::add, checkTuple, clearOldTuples", "include/message_filters/sync_policies/approximate_epsilon_time.hpp: ApproximateEpsilonTime::add, process", "include/message_filters/sync_policies/approximate_time.hpp: ApproximateTime::add, process", "src/message_filters/__init__.py: TimeSynchronizer.add, ApproximateTimeSynchronizer.add"]}
{"id": "C126", "title": "Repeated stamps are matched at least once and not more often than on any input", "statement": "If inputs repeat stamps (a message sent twice, or several with the same stamp), an ExactTime synchronizer with an unlimited queue whose inputs deliver in time order has output a set with a stamp if and only if every input has delivered that stamp; exactly one such set if one of the inputs delivers it once. For every history and queue size the sets with a stamp are not more than the messages with it on any one input. The Python TimeSynchronizer with room for all messages also outputs at least one set for exactly the stamps that all inputs have delivered, in whatever order. Behind an InputAligner (any queue size) or behind one TimeSequencer per input, whatever the order of arrival, a set with a stamp has been output if and only if every input of the synchronizer was given that stamp.", "quantifier": "all numbers of inputs, all histories in which stamps may be repeated, all queue sizes (for the upper bound)", "why_tests_cant": "all interleavings and all repetitions of unbounded histories", "anchors": ["include/message_filters/sync_policies/exact_time.hpp: ExactTime::add, checkTuple, clearOldTuples", "src/message_filters/__init__.py: TimeSynchronizer.add", "include/message_filters/input_aligner.hpp: InputAligner::dispatchMessages", "include/message_filters/time_sequencer.hpp: TimeSequencer::dispatch"]}
{"id": "C127", "title": "When an answer of the Python Cache is final", "statement": "If the messages reach a Python Cache in time order and with stamps of one clock type, then once a message newer than b is cached, getInterval(a, b) returns all messages ever added with a time in the interval, including all that will be added, and returns the same when asked again as long as the oldest cached time is before a or the cache has never been full. Once getElemAfterTime(t) has given a message, it is the first of all messages not before t and stays the answer as long as the oldest cached time is before t. Once a message newer than t is cached, getElemBeforeTime(t) is the last of all messages not after t and stays the answer as long as the oldest cached time is not after t.", "quantifier": "all cache sizes, all histories in time order and all their continuations, with or without messages without header, all times asked for", "why_tests_cant": "all continuations of unbounded histories", "anchors": ["src/message_filters/__init__.py: Cache.add, getInterval, getElemAfterTime, getElemBeforeTime, getLastestTime, getOldestTime"]}
{"id": "C128", "title": "What a larger tolerance changes", "statement": "On inputs in time order whose stamps are more than two of the larger tolerances apart, and with room in the queues, a larger tolerance of an approximate synchronizer only adds sets. For ApproximateEpsilonTime the output with the smaller epsilon is that with the larger one, in the same order, without the sets whose stamps differ by more than the smaller one. For the Python ApproximateTimeSynchronizer the same holds of the collection of sets, in any order of the stamps. For ApproximateTime the same holds except for sets whose oldest message is the last one of its input so far. On two inputs in time order, however close their messages, a larger epsilon never means fewer sets, and the k-th set with the larger epsilon is at least as old on both inputs. For ApproximateTime with any number of inputs, however close their messages, the k-th set with a larger maximum interval is at least as old, on every input, as the k-th one with the smaller one, and while every input keeps delivering a larger maximum interval never means fewer sets. Otherwise nothing of this holds in general: with closer messages a larger tolerance gives other sets, and from three inputs on ApproximateEpsilonTime and the Python synchronizer can output fewer sets with a larger tolerance.", "quantifier": "all numbers of inputs, histories, interleavings, queue sizes and pairs of tolerances", "why_tests_cant": "pairs of runs of unbounded histories under all pairs of tolerances", "anchors": ["include/message_filters/sync_policies/approximate_epsilon_time.hpp: add", "include/message_filters/sync_policies/approximate_time.hpp: process, setMaxIntervalDuration", "src/message_filters/__init__.py: ApproximateTimeSynchronizer.add"]}
{"id": "C129", "title": "What a larger cache or queue changes", "statement": "A C++ Cache of fixed size holds all that a smaller one holds after the same messages in any order, so its intervals contain those of the smaller one and its neighbours of a time are at least as close. A Python Cache ends with the messages a smaller one holds. A TimeSequencer with a larger queue outputs all that one with a smaller queue outputs, in the same order, provided that no two messages have the same stamp and the clock stands still while a timer call runs. The ApproximateTime, ApproximateEpsilonTime and Python approximate synchronizers have no such guarantee: a larger queue can give other sets, and with three inputs ApproximateEpsilonTime can output fewer sets with a larger queue.", "quantifier": "all pairs of sizes and all histories of messages and timer calls", "why_tests_cant": "pairs of runs of unbounded histories under all pairs of sizes", "anchors": ["include/message_filters/cache.hpp: add, getInterval, getElemBeforeTime, getElemAfterTime, setCacheSize", "include/message_filters/time_sequencer.hpp: add, dispatch", "src/message_filters/__init__.py: Cache.add, ApproximateTimeSynchronizer.add", "include/message_filters/sync_policies/approximate_epsilon_time.hpp: add", "include/message_filters/sync_policies/approximate_time.hpp: add"]}
{"id": "C130", "title": "The C++ and the Python Cache answer alike", "statement": "If the same messages reach a C++ Cache and a Python Cache of the same size in time order, with stamps of one clock type, both hold and pass on the same messages, getInterval(a, b) with a <= b gives the same messages, and the oldest and newest times are the same unless the caches are empty. getElemAfterTime(t) in Python is getElemAfterTime(t - 1 ns) in C++ and getElemBeforeTime(t) is getElemBeforeTime(t + 1 ns), since only Python includes the time itself. The two differ on empty caches (time 0 and no time), on intervals that end before they start (empty and an assertion) and on messages out of order.", "quantifier": "all cache sizes, all histories in time order, all times asked for, any clock readings and either setting of allow_headerless", "why_tests_cant": "unbounded histories and all queries", "anchors": ["include/message_filters/cache.hpp: add, getInterval, getElemBeforeTime, getElemAfterTime, getLatestTime, getOldestTime", "src/message_filters/__init__.py: Cache.add, getInterval, getElemAfterTime, getElemBeforeTime, getLastestTime, getOldestTime"]}
{"id": "C131", "title": "What more timer calls or a smaller delay of a TimeSequencer change", "statement": "Take timer calls away from a history of a TimeSequencer with an unlimited queue, or make its delay larger, the clock standing still while a timer call runs. Then all that was output or waiting is still output or waiting, in the same order. After a last timer call when everything is due, the output with more timer calls and the smaller delay is part of the output with fewer of them and the larger delay: a lower update rate or a larger delay delays messages but loses none that would not be lost otherwise, and can save late ones. With a limited queue an additional timer call or a smaller delay can save a message from the overflow.", "quantifier": "all histories of messages and timer calls, all ways to take timer calls away, all pairs of delays and clock readings", "why_tests_cant": "pairs of unbounded histories with arbitrary timer calls left out", "anchors": ["include/message_filters/time_sequencer.hpp: TimeSequencer(f, delay, update_rate, queue_size, node), add, dispatch"]}
{"id": "C132", "title": "What a larger age penalty of ApproximateTime changes", "statement": "Let two ApproximateTime synchronizers that differ only in the age penalty receive the same messages, strictly increasing and respecting the lower bounds on each input, with no queue overflowing. As long as both have output the same sets, the next set with the larger age penalty is at least as old as the next one with the smaller age penalty, on every input, and spans at least as much time. Also when the sets before differ, the k-th set with the larger age penalty is at least as old, on every input, as the k-th one with the smaller age penalty, and while every input keeps delivering the larger age penalty never means fewer sets. Without age penalty each set spans the least time of all contiguous sets (those with no possible set before them) of the newer messages; with an age penalty above the maximum interval in nanoseconds it is one that is complete first.", "quantifier": "all numbers of inputs, all histories of messages, all pairs of age penalties, all positions in the output", "why_tests_cant": "relates two runs over unbounded histories for every pair of penalties", "anchors": ["include/message_filters/sync_policies/approximate_time.hpp: setAgePenalty, add, process"]}
{"id": "C133", "title": "A set of ApproximateTime passes over no message in its time span", "statement": "Each set an ApproximateTime synchronizer outputs takes from every input the first message, from the time of the set's oldest message on, that is newer than the sets before it: any other message of that input in between is not newer than a message of the same input in a set output earlier. The inputs are strictly increasing and respect the lower bounds, and no queue overflows; messages still to come are covered as well.", "quantifier": "all numbers of inputs, all histories and futures of messages, all age penalties, all output sets, all messages", "why_tests_cant": "ranges over every message of unbounded histories and over all messages still to come", "anchors": ["include/message_filters/sync_policies/approximate_time.hpp: add, process, makeCandidate, publishCandidate"]}
{"id": "C134", "title": "An ApproximateTime synchronizer that is started earlier", "statement": "Let one ApproximateTime synchronizer receive, on every input, what another one receives and possibly some messages before that, because it was started earlier. The inputs are strictly increasing and respect the lower bounds, and no queue overflows. Then the k-th set of the one that was started earlier is at least as old, on every input, as the k-th set of the other one, and while every input keeps delivering it does not output fewer sets.", "quantifier": "all numbers of inputs, all histories, all messages at the beginning, all interleavings, all positions in the output", "why_tests_cant": "relates two runs over unbounded histories that start at different times", "anchors": ["include/message_filters/sync_policies/approximate_time.hpp: add, process, publishCandidate"]}
