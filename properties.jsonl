{"id": "C01", "title": "Tags are totally ordered lexicographically", "statement": "lf_tag_compare(a,b) returns -1, 0 or 1, and the relation it computes is a total order: exactly one of a<b, a=b, a>b holds, it is transitive, it compares time first and microstep second, and NEVER_TAG / FOREVER_TAG are its least and greatest elements.", "quantifier": "all pairs and triples of tag_t values (64-bit time, 32-bit microstep)", "why_tests_cant": "2^192 pairs; every queue and every grant decision assumes a total order on all of them.", "anchors": ["core/tag.c:lf_tag_compare", "tag/api/tag.h:NEVER_TAG,FOREVER_TAG"]}
{"id": "C02", "title": "Time addition saturates", "statement": "lf_time_add(a,b) is the mathematical sum whenever that fits strictly between NEVER and FOREVER, is FOREVER/NEVER when the sum overflows/underflows, and treats NEVER and FOREVER operands as absorbing (NEVER wins).", "quantifier": "all pairs of 64-bit instants and intervals", "why_tests_cant": "The overflow border is reached by a measure-zero set of inputs out of 2^128.", "anchors": ["core/tag.c:lf_time_add"]}
{"id": "C03", "title": "Tag addition accumulates delays consistently", "statement": "lf_tag_add is monotone in its first argument, never yields a tag earlier than its first argument for a non-negative delay, has (0,0) as right unit on finite tags, and is associative for non-negative delays as long as no overflow occurs, so that the delay of a path does not depend on how the path is split.", "quantifier": "all tags and all non-negative delays", "why_tests_cant": "Path delays are sums of arbitrarily many hops; associativity and monotonicity are universally quantified.", "anchors": ["core/tag.c:lf_tag_add", "core/federated/RTI/rti_common.c:_update_min_delays_upstream"]}
{"id": "C04", "title": "Delaying a tag yields a later tag", "statement": "For a tag that is neither NEVER nor FOREVER and an interval >= 0, lf_delay_tag returns a strictly later tag (time + interval at microstep 0, or the next microstep for interval 0), saturating at FOREVER_TAG; it is monotone in the tag.", "quantifier": "all tags and intervals", "why_tests_cant": "The claim ranges over every 64-bit time and every microstep, including the wrap-around border where it fails.", "anchors": ["core/tag.c:lf_delay_tag"]}
{"id": "C05", "title": "A port-absent promise never covers a message that can still be sent", "statement": "If a sender has completed tag g on a connection with after-delay d, the tag lf_delay_strict(g,d) it announces (the tag up to which nothing more will arrive) is strictly earlier than lf_delay_tag(g',d) for every later send tag g' > g.", "quantifier": "all tags g < g' and all legal after-delays d (NEVER for no delay, or >= 0)", "why_tests_cant": "Soundness of the promise quantifies over all future send tags.", "anchors": ["core/tag.c:lf_delay_strict", "core/federated/federate.c:lf_send_port_absent_to_federate", "core/federated/RTI/rti_common.c:eimt_strict"]}
{"id": "C06", "title": "The priority queue is a correct priority queue for every history", "statement": "After any sequence of insertions, pops and removals the queue holds exactly the inserted-minus-removed elements, pop and peek return an element of minimum priority, pop returns NULL exactly when the queue is empty, size is exact, and draining the queue yields a sorted permutation of its contents.", "quantifier": "all finite operation sequences, all priorities, all queue sizes", "why_tests_cant": "The heap shape space is unbounded; a sift bug shows up only for particular shapes.", "anchors": ["core/utils/pqueue_base.c:pqueue_insert,pqueue_pop,pqueue_remove,pqueue_peek,bubble_up,percolate_down,maxchild"]}
{"id": "C07", "title": "Priority-queue position bookkeeping", "statement": "After any sequence of operations each queued element's recorded position is the slot it actually occupies, so pqueue_remove of a queued element removes that element and no other.", "quantifier": "all operation sequences", "why_tests_cant": "A stale position corrupts the queue only for particular histories.", "anchors": ["core/utils/pqueue_base.c:pqueue_remove,bubble_up,percolate_down"]}
{"id": "C08", "title": "Priority-queue search is exact", "statement": "pqueue_find_same_priority / pqueue_find_equal_same_priority return a queued element of the given priority (and equal to the given element) whenever one exists, and NULL otherwise, although they prune the search.", "quantifier": "all reachable queues and all query elements", "why_tests_cant": "The pruning is justified only by the heap invariant over every reachable shape.", "anchors": ["core/utils/pqueue_base.c:find_same_priority,find_equal_same_priority"]}
{"id": "C09", "title": "Tag queues keep every tag exactly and forget only what is in the past", "statement": "pqueue_tag_insert_if_no_match keeps the queued tags duplicate free, pqueue_tag_peek_tag/pop_tag return the minimum tag or FOREVER_TAG when empty, and pqueue_tag_remove_up_to(t) removes exactly the elements with tag <= t.", "quantifier": "all histories of tag-queue operations and all tags", "why_tests_cant": "Unbounded histories; the RTI's in-transit record relies on it for every message pattern.", "anchors": ["core/utils/pqueue_tag.c:pqueue_tag_insert_if_no_match,pqueue_tag_peek_tag,pqueue_tag_pop_tag,pqueue_tag_remove_up_to"]}
{"id": "C10", "title": "Scheduling never targets the past nor the time after the stop", "statement": "Whatever the action, delay, value and prior history, an event that lf_schedule* adds to the event queue has a tag strictly later than the current tag and not later than the stop tag; a call made when it cannot be honoured returns 0 or a negative value and adds nothing.", "quantifier": "all actions (logical/physical, any min delay, spacing, policy), all extra delays, all physical clock readings, all event queues", "why_tests_cant": "Unbounded state space of queues, policies and clock values.", "anchors": ["lib/schedule.c:lf_schedule_trigger", "core/reactor_common.c:_lf_schedule_at_tag"]}
{"id": "C11", "title": "Minimum spacing policies", "statement": "For an action with min spacing s > 0: under defer, events are scheduled at least s after the previously scheduled one; under drop, an event closer than s is discarded and its payload released; under replace, a closer event replaces the payload of the pending one, or is deferred when that one is no longer pending.", "quantifier": "all schedule-call sequences on an action", "why_tests_cant": "The property is about every pair of consecutive calls in every history.", "anchors": ["lib/schedule.c:lf_schedule_trigger"]}
{"id": "C12", "title": "No two pending events for the same trigger at the same tag", "statement": "lf_schedule* never leaves two events with the same trigger and tag in the event queue (events without spacing move to the next free microstep).", "quantifier": "all histories of schedule calls and tag advances", "why_tests_cant": "Depends on the whole queue content and arbitrary histories.", "anchors": ["lib/schedule.c:lf_schedule_trigger", "core/environment.c:event_matches"]}
{"id": "C13", "title": "Logical time advances strictly and every event is processed exactly at its tag", "statement": "In every execution the sequence of processed tags is strictly increasing, each event is handled at exactly the tag it was scheduled for, no event scheduled at or before the stop tag is lost, and nothing after the stop tag is processed.", "quantifier": "all programs, all schedule calls made by reactions, all executions of the main loop", "why_tests_cant": "Quantifies over all executions and all interleavings of scheduling with tag advance.", "anchors": ["core/reactor.c:next,_lf_do_step", "core/reactor_common.c:_lf_advance_tag,_lf_pop_events"]}
{"id": "C14", "title": "Reactions run at most once per tag and in precedence order", "statement": "At each tag every triggered reaction runs exactly once, no untriggered reaction runs, and if each reaction triggers only reactions of higher index, reactions run in increasing index order.", "quantifier": "all reaction graphs, all sets of triggered reactions, all outputs produced", "why_tests_cant": "Every reaction graph and every output pattern.", "anchors": ["core/reactor.c:_lf_do_step,_lf_trigger_reaction", "core/reactor_common.c:schedule_output_reactions"]}
{"id": "C15", "title": "Timers fire exactly at offset + k * period", "statement": "A timer with offset o and period p > 0 fires exactly at start + o + k*p for k = 0,1,2,... up to the stop tag, once at each, and a timer with period 0 fires exactly once.", "quantifier": "all offsets, periods, stop tags and numbers of firings", "why_tests_cant": "Unbounded number of firings.", "anchors": ["core/reactor_common.c:_lf_initialize_timer,_lf_pop_events"]}
{"id": "C16", "title": "The stop tag never moves later and bounds the execution", "statement": "lf_set_stop_tag never increases the stop tag; after lf_request_stop at tag (t,m) execution ends at (t,m+1) or at the earlier existing stop tag; the shutdown reactions are triggered at the stop tag exactly once.", "quantifier": "all sequences of stop requests, timeouts and tag advances", "why_tests_cant": "All orders of requests and advances.", "anchors": ["core/reactor_common.c:lf_set_stop_tag", "core/reactor.c:lf_request_stop,next"]}
{"id": "C17", "title": "Deadline selection", "statement": "A reaction with deadline d >= 0 runs its body iff d != 0 and the physical time read is at most logical time + d, and otherwise runs exactly its deadline handler, never both; a reaction without deadline always runs its body.", "quantifier": "all deadlines, logical times and physical clock readings", "why_tests_cant": "All clock readings.", "anchors": ["core/reactor.c:_lf_do_step", "core/threaded/reactor_threaded.c:_lf_worker_handle_deadline_violation_for_reaction", "lib/schedule.c:lf_check_deadline"]}
{"id": "C18", "title": "Presence never leaks across tags", "statement": "When a new tag starts every port is absent, whichever ports (and however many, in whichever order, with repetition) were set in the previous tag.", "quantifier": "all sets of ports and all sequences of lf_set calls", "why_tests_cant": "The abbreviated record of present ports is an optimisation whose overflow border depends on the number of set calls.", "anchors": ["core/reactor_common.c:_lf_start_time_step", "core/reactor.c:lf_set_present"]}
{"id": "C19", "title": "Multiport iteration visits exactly the present channels in order", "statement": "Iterating over a multiport visits each present channel exactly once in ascending order and no absent channel, whether the sparse record is used, has overflowed or does not exist.", "quantifier": "all widths, all sparse capacities, all sets and orders of set channels", "why_tests_cant": "Unbounded widths and orders, with a border at the sparse capacity.", "anchors": ["core/port.c:_lf_multiport_iterator_impl,lf_multiport_next", "core/reactor.c:lf_set_present"]}
{"id": "C20", "title": "Concurrent lf_set on a sparse multiport loses no channel", "statement": "However the threads that set distinct channels of one multiport in the same tag interleave, afterwards either the sparse record holds each set channel exactly once, or it is marked overflowed so that iteration scans all channels.", "quantifier": "all numbers of threads and all interleavings of their atomic steps", "why_tests_cant": "All thread interleavings.", "anchors": ["core/threaded/reactor_threaded.c:lf_set_present"]}
{"id": "C21", "title": "Payload reference counting is safe", "statement": "In every history of scheduling, setting, reading, copying and releasing message payloads, a payload is freed only when nobody holds a reference, is never freed twice, and is not used after it is freed.", "quantifier": "all histories of token operations", "why_tests_cant": "Unbounded histories and sharing patterns.", "anchors": ["core/lf_token.c:_lf_free_token,_lf_done_using,_lf_replace_template_token,_lf_new_token"]}
{"id": "C22", "title": "A writable copy is private", "statement": "lf_writable_copy returns a payload that no other holder can observe: either the caller is the only reader of the original, or a fresh copy is returned.", "quantifier": "all reader counts, reference counts and types with/without copy constructors", "why_tests_cant": "All sharing patterns.", "anchors": ["core/lf_token.c:_lf_writable_copy_locked"]}
{"id": "C23", "title": "Discarded events release their payload", "statement": "When a schedule request is discarded (after the stop tag, spacing violation, negative delay) the caller's payload reference is released.", "quantifier": "all schedule calls that are discarded", "why_tests_cant": "All ways of discarding in all states; the code violates it on one path.", "anchors": ["lib/schedule.c:lf_schedule_trigger", "core/reactor_common.c:_lf_schedule_at_tag"]}
{"id": "C24", "title": "RTI grants are monotone", "statement": "For each federate the tags granted by the RTI never go backwards: a final grant is strictly later than every earlier final grant and not earlier than any earlier provisional grant; a provisional grant is strictly later than every earlier provisional grant and later than every earlier final one.", "quantifier": "all federations, all message histories processed by the RTI", "why_tests_cant": "All histories of NET/LTC/message arrivals.", "anchors": ["core/federated/RTI/rti_common.c:tag_advance_grant_if_safe,notify_advance_grant_if_safe", "core/federated/RTI/rti_remote.c:notify_tag_advance_grant,notify_provisional_tag_advance_grant"]}
{"id": "C25", "title": "A federate never receives a message at or before a tag it was granted", "statement": "With centralized coordination, any message delivered to a federate after a final grant TAG(g) reached the RTI's decision carries a tag strictly later than g; after a provisional grant PTAG(g), a tag not earlier than g.", "quantifier": "all topologies with arbitrary delays (including cycles), all federate behaviours allowed by the protocol, all network interleavings", "why_tests_cant": "All topologies, behaviours and interleavings of a distributed protocol.", "anchors": ["core/federated/RTI/rti_common.c:tag_advance_grant_if_safe,earliest_future_incoming_message_tag,eimt_strict", "core/federated/RTI/rti_remote.c:handle_timed_message,handle_next_event_tag,handle_latest_tag_confirmed"]}
{"id": "C26", "title": "Transitive minimum delays are exact", "statement": "The upstream minimum delays the RTI caches for a federate equal the minimum, over all paths of connected federates, of the accumulated connection delay, and the zero-delay-cycle and cycle flags are set iff such a cycle through the federate exists.", "quantifier": "all topologies (any number of federates, cyclic or not) and all delays", "why_tests_cant": "All graphs.", "anchors": ["core/federated/RTI/rti_common.c:update_min_delays_upstream,_update_min_delays_upstream,is_in_zero_delay_cycle,is_in_cycle"]}
{"id": "C27", "title": "The RTI always lets somebody make progress", "statement": "When every connected federate has reported its next event tag, no message is in transit and no zero-delay cycle exists, the federate with the least next event tag that is minimal among its zero-delay upstreams can be granted its tag: the grant decision never leaves the federation stuck.", "quantifier": "all topologies without zero-delay cycles and all next-event vectors", "why_tests_cant": "All graphs and all vectors.", "anchors": ["core/federated/RTI/rti_common.c:tag_advance_grant_if_safe"]}
{"id": "C28", "title": "Federation-wide stop is consistent", "statement": "The stop tag the RTI grants is one for the whole federation: the latest tag proposed by any federate, sent to every federate at most once, and only after every federate has proposed one or left. No federate is ever past it, also before the message arrives, so all stop at the same tag (or at their own earlier timeout). If nobody leaves, a call of lf_request_stop by any federate leads every federate to that stop tag.", "quantifier": "all numbers of federates, all start tags, all events, all interleavings of calls of lf_request_stop, messages, tag advances and resignations", "why_tests_cant": "All interleavings of stop requests with tag advances in every federate.", "anchors": ["core/threaded/reactor_threaded.c:lf_request_stop", "core/federated/federate.c:lf_send_stop_request_to_rti,handle_stop_request_message,handle_stop_granted_message", "core/federated/RTI/rti_remote.c:handle_stop_request_message,handle_stop_request_reply,mark_federate_requesting_stop,broadcast_stop_time_to_federates_locked"]}
{"id": "C29", "title": "All federates get the same start time, after every one of them is ready", "statement": "The start time sent to each federate is the same for all, equals the maximum of the proposed timestamps plus the start delay, and is sent only after every federate has sent its timestamp. Each federate gets it exactly once and before any grant, and once all have sent their timestamps nobody is left waiting.", "quantifier": "all numbers of federates, all proposals, all arrival orders and all interleavings of the threads of the RTI", "why_tests_cant": "All interleavings.", "anchors": ["core/federated/RTI/rti_remote.c:handle_timestamp"]}
{"id": "C30", "title": "Join handshake accepts only valid, unused federate identifiers of this federation", "statement": "A connecting federate is accepted iff it presents the federation's identifier, an identifier in range and one not already connected; otherwise it is rejected with the documented cause. When the RTI goes on, each federate of the federation has joined exactly once, with the connections it described.", "quantifier": "all byte strings received, all identifiers, all sequences of connections", "why_tests_cant": "All strings; the code accepts any prefix of the federation id.", "anchors": ["core/federated/RTI/rti_remote.c:receive_and_check_fed_id_message,receive_connection_information,lf_connect_to_federates", "core/federated/federate.c:lf_connect_to_rti"]}
{"id": "C31", "title": "Wire encoding round-trips", "statement": "Decoding what was encoded gives back the same integers, tags and message headers for every value, on both byte orders, and the encoding is a fixed-length little-endian string.", "quantifier": "all 16/32/64-bit values, all tags, all header fields", "why_tests_cant": "2^64 values each.", "anchors": ["core/federated/network/net_util.c:encode_int64,extract_int64,encode_tag,extract_tag,encode_uint32,extract_header,extract_timed_header"]}
{"id": "C32", "title": "Socket reads and writes are all-or-nothing", "statement": "read_from_socket returns success only after exactly the requested number of bytes was received in order, and write_to_socket only after exactly the given bytes were handed over in order, whatever partial transfers and transient errors occur; otherwise failure is reported.", "quantifier": "all requested lengths and all sequences of partial transfers, EAGAIN and errors", "why_tests_cant": "Unbounded sequences of partial results.", "anchors": ["core/federated/network/net_util.c:read_from_socket,write_to_socket"]}
{"id": "C33", "title": "Message forwarding through the RTI preserves content", "statement": "handle_timed_message forwards header and payload of any length (shorter, equal or longer than the communication buffer) to the destination byte for byte.", "quantifier": "all payload lengths", "why_tests_cant": "Borders at the buffer size, unbounded lengths.", "anchors": ["core/federated/RTI/rti_remote.c:handle_timed_message"]}
{"id": "C34", "title": "vector behaves as a growable list", "statement": "For any history with initial capacity >= 1: push/pushall append, pop returns the last pushed element, vector_at(i) reads what was stored at i, growing and shrinking never lose elements, and no access is out of bounds.", "quantifier": "all operation sequences and capacities", "why_tests_cant": "Resize points depend on the entire history and votes.", "anchors": ["core/utils/vector.c"]}
{"id": "C35", "title": "hashset behaves as a set", "statement": "For any history of additions and removals of legal items, membership tests, sizes and iteration agree with a mathematical set; every probe sequence terminates.", "quantifier": "all histories, all items except the reserved values 0 and 1", "why_tests_cant": "Collisions, tombstones and rehash depend on the entire history.", "anchors": ["core/utils/hashset/hashset.c", "core/utils/hashset/hashset_itr.c"]}
{"id": "C36", "title": "hashmap behaves as a finite map", "statement": "While fewer keys than capacity are stored, get returns the value of the last put with that key and has no effect on others, for any hash function.", "quantifier": "all histories and all hash functions", "why_tests_cant": "Collision patterns are unbounded.", "anchors": ["include/core/utils/impl/hashmap.h"]}
{"id": "C37", "title": "deque behaves as a double-ended queue", "statement": "For any history, push/pop/peek at both ends agree with a list, and popping an empty deque returns NULL.", "quantifier": "all operation sequences", "why_tests_cant": "Pointer structure for all histories.", "anchors": ["util/deque.c"]}
{"id": "C38", "title": "Mixed-radix numbers enumerate in order and wrap", "statement": "mixed_radix_incr moves to the next number in the permuted order, wrapping after the last, keeping digits in range, so that every combination of digits is visited exactly once per round, and mixed_radix_parent returns the value of the number with the first n digits dropped.", "quantifier": "all radix vectors and all values", "why_tests_cant": "All lengths and radixes.", "anchors": ["core/mixed_radix.c", "include/core/mixed_radix.h"]}
{"id": "C39", "title": "Physical time never goes backwards", "statement": "The values lf_time_physical returns never decrease: a call that begins after another has returned yields a value not smaller, however the system clock jumps and however many threads call it.", "quantifier": "all system clock sequences, all numbers of threads, all interleavings", "why_tests_cant": "All interleavings of a lock-free loop.", "anchors": ["core/clock.c:lf_clock_gettime"]}
{"id": "C40", "title": "Clock synchronisation estimates the offset", "statement": "With symmetric network delay the per-exchange clock error estimate is exact, with arbitrary non-negative delays it is off by at most half the round trip, and after a full exchange window the applied correction differs from the average error only by integer truncation; the sample buffer is never overrun.", "quantifier": "all clock offsets, delays and exchange sequences", "why_tests_cant": "All delay values and sequences.", "anchors": ["core/federated/clock-sync.c:handle_T4_clock_sync_message,estimate_clock_error,update_socket_stat"]}
{"id": "C41", "title": "Level-synchronised scheduler: no lost, duplicated or out-of-level reaction", "statement": "With the non-preemptive scheduler, for every number of workers and every interleaving: a triggered reaction is executed exactly once before the tag advances, two reactions of different levels never execute at the same time, and lower levels finish before higher ones start.", "quantifier": "all numbers of workers, all reaction sets, all interleavings", "why_tests_cant": "All thread interleavings.", "anchors": ["core/threaded/scheduler_NP.c"]}
{"id": "C42", "title": "Level-synchronised scheduler: workers never all sleep", "statement": "Whatever the interleaving, some worker can always take a step (no lost wake-up deadlock) until stop.", "quantifier": "all numbers of workers, all interleavings", "why_tests_cant": "Deadlocks from lost wake-ups need rare schedules.", "anchors": ["core/threaded/scheduler_NP.c:wait_for_work,try_advance_tag_and_distribute,distribute_ready_reactions_locked,notify_workers"]}
{"id": "C43", "title": "Earliest-deadline scheduler executes each triggered reaction once, in dependency order", "statement": "With the EDF scheduler, each reaction triggered at a tag is executed exactly once at that tag and no other reaction is; a reaction starts only after the reactions it depends on that are executed at that tag have finished; reactions executing at the same time have the same level; among the queued reactions one with the least (deadline, level) is taken; the tag advances only when nothing is queued or executing; the queue is accessed only with the mutex; the workers neither all sleep nor wait busily.", "quantifier": "all numbers of workers, all sets of reactions and deadlines, all interleavings", "why_tests_cant": "All interleavings.", "anchors": ["core/threaded/scheduler_GEDF_NP.c", "core/threaded/reactor_threaded.c:_lf_worker_do_work"]}
{"id": "C44", "title": "Tag barriers are respected", "statement": "Unless the option -fast is given, while a barrier is outstanding the current tag stays strictly earlier than the tag asked for and than the stop tag at that time or, if one of these had been reached when the barrier was asked for, does not change; so a message whose header is read before its tag is reached is handed over in time, at its own tag. When the last barrier is given back none remains and nobody waits, nobody waits for a tag earlier than all barriers, and no event inserted during a wait is skipped.", "quantifier": "all sequences of raise/lower/advance", "why_tests_cant": "All interleavings of barrier requests with tag advance.", "anchors": ["core/threaded/reactor_threaded.c:_lf_increment_tag_barrier_locked,_lf_decrement_tag_barrier_locked,_lf_wait_on_tag_barrier"]}
{"id": "C45", "title": "Level-by-level input waiting admits only known inputs", "statement": "A federate executing a reaction at a level has, for every network input port whose level is not greater, a known status at the current tag: a message or notice for this or a later tag has come in on that port, the RTI has granted the tag, the sender is gone, or the waiting time (STAA) has run out. Statuses known never go backwards, a message that is handled at once finds its reaction not yet started, and a worker waits only while some such status is unknown.", "quantifier": "all sets of network ports, levels, statuses and grants", "why_tests_cant": "All combinations of port states.", "anchors": ["core/federated/federate.c:lf_update_max_level,lf_stall_advance_level_federation,update_last_known_status_on_input_port"]}
{"id": "C46", "title": "Modal reactors: exactly the active modes act", "statement": "After every mode change, a mode is active iff it and all enclosing modes are the current modes; every modal reactor has exactly one current mode; the cached activity flag agrees with the definition.", "quantifier": "all nesting structures and all transition sequences", "why_tests_cant": "All trees and histories.", "anchors": ["core/modal_models/modes.c:_lf_mode_is_active,_lf_process_mode_changes"]}
{"id": "C47", "title": "Modal time suspension", "statement": "An event of an action in a mode that is left and re-entered by history is delivered with the remaining delay it had when the mode was left; by reset it is discarded and timers restart with their offset.", "quantifier": "all events, leave times and re-entry times", "why_tests_cant": "All times.", "anchors": ["core/modal_models/modes.c:_lf_process_mode_changes"]}
{"id": "C48", "title": "Counting semaphore", "statement": "lf_semaphore_acquire returns at most as many times as initial count plus released units, the count never goes negative, and a waiting thread can proceed whenever the count is positive.", "quantifier": "all threads and interleavings", "why_tests_cant": "All interleavings.", "anchors": ["core/utils/lf_semaphore.c"]}
{"id": "C49", "title": "Tracing neither loses nor reorders records", "statement": "Between start and stop, with an open trace file, the file contains for each worker exactly the records it wrote, in order, and buffers are never overrun.", "quantifier": "all record sequences and numbers of workers", "why_tests_cant": "Border at buffer capacity; unbounded sequences.", "anchors": ["trace/impl/src/trace_impl.c:lf_tracing_tracepoint,flush_trace_locked,lf_tracing_global_shutdown"]}
{"id": "C50", "title": "Watchdog handler runs only after expiration", "statement": "A watchdog handler is invoked only if the watchdog was started, not stopped or restarted since, and physical time has reached logical start time plus timeout; at most once per start.", "quantifier": "all sequences of start/stop and clock readings", "why_tests_cant": "All interleavings of start, stop and expiry.", "anchors": ["core/threaded/watchdog.c:watchdog_thread_main,lf_watchdog_start,lf_watchdog_stop"]}
{"id": "C51", "title": "Next-event bound before a grant is honest", "statement": "The tag a federate reports as its earliest possible next output when it has physical actions is not later than the tag of any event it may still create.", "quantifier": "all physical times, minimum delays and queue heads", "why_tests_cant": "All clock readings.", "anchors": ["core/federated/federate.c:bounded_NET,lf_send_next_event_tag"]}
{"id": "C52", "title": "Combined deadline/level index orders by deadline then level", "statement": "lf_combine_deadline_and_level orders reactions by deadline first and level second for deadlines up to the saturation limit and levels below 65536, and the level is recoverable.", "quantifier": "all deadlines and levels", "why_tests_cant": "All 64-bit deadlines and 16-bit levels.", "anchors": ["core/reactor_common.c:lf_combine_deadline_and_level"]}
{"id": "C53", "title": "Recycled events are not aliased", "statement": "lf_get_new_event never returns an event object that is still in the event queue; recycled objects come back cleared.", "quantifier": "all histories of get/insert/pop/recycle", "why_tests_cant": "Aliasing depends on whole histories.", "anchors": ["core/reactor_common.c:lf_get_new_event,lf_recycle_event"]}
{"id": "C54", "title": "Printed times are faithful", "statement": "lf_comma_separated_time prints exactly the decimal digits of a non-negative time with commas every three digits, and lf_readable_time's printed components sum to the input time.", "quantifier": "all 64-bit non-negative times", "why_tests_cant": "2^63 inputs.", "anchors": ["core/tag.c:lf_readable_time,lf_comma_separated_time"]}
{"id": "C55", "title": "Enclave coordination admits only safe tags", "statement": "rti_next_event_tag_locked returns a tag only when the enclave has no upstream, it was already granted, or a grant covers it; otherwise it blocks.", "quantifier": "all enclave graphs and histories", "why_tests_cant": "All interleavings of enclaves.", "anchors": ["core/federated/RTI/rti_local.c:rti_next_event_tag_locked,rti_logical_tag_complete_locked,rti_update_other_net_locked"]}
{"id": "C56", "title": "Command-line processing", "statement": "process_args accepts exactly the command lines made of its options and their values (fast, timeout with a unit, keepalive, workers, federation id, RTI address), sets each parameter to the value given with its unit, and rejects everything else without reading past the argument vector.", "quantifier": "all argument vectors", "why_tests_cant": "All strings.", "anchors": ["core/reactor_common.c:process_args"]}
{"id": "C57", "title": "Payloads are released when nothing refers to them", "statement": "Once no port, action, queued event, writable copy or reaction refers to a message any more, its payload has been freed or its token recycled; none stays allocated for ever.", "quantifier": "all histories of token operations", "why_tests_cant": "A leak is an absence of references at the end of some history; no finite set of histories covers it.", "anchors": ["core/lf_token.c:_lf_done_using,_lf_get_token,_lf_initialize_token_with_value,_lf_replace_template_token,_lf_free_token_copies", "lib/schedule.c:lf_schedule_value,lf_schedule_copy", "include/api/reaction_macros.h:lf_set"]}
{"id": "C58", "title": "A federate advances only as far as it was granted", "statement": "With centralized coordination, a federate that has upstream federates never advances its tag beyond the last grant it received, whatever arrives while it waits.", "quantifier": "all interleavings of arriving events, grants and clock readings with the waits of the main thread", "why_tests_cant": "All schedules of the receiving threads.", "anchors": ["core/threaded/reactor_threaded.c:_lf_next_locked,get_next_event_tag", "core/federated/federate.c:lf_send_next_event_tag"]}
{"id": "C59", "title": "Startup, reset and shutdown reactions of modes", "statement": "The startup reactions of a mode run at most once, and only at a tag at which the mode is active; its reset reactions run exactly when it is entered by a reset transition; its shutdown reactions run at the end exactly if its startup reactions have run; a mode that has been active has had its startup reactions run.", "quantifier": "all programs of modal reactors, all sequences of transitions", "why_tests_cant": "All sequences of transitions in all nestings of modes.", "anchors": ["core/modal_models/modes.c:_lf_handle_mode_startup_reset_reactions,_lf_handle_mode_shutdown_reactions,_lf_initialize_mode_states"]}
{"id": "C60", "title": "Messages arrive in time in a federation", "statement": "Under centralized coordination, no federate receives a message over a logical connection for a tag that it has reached already, except at a tag granted provisionally within a zero-delay cycle; what federates report to the coordinator (next event, completed tags) is never contradicted by what they send later; and no federate runs ahead of its grants.", "quantifier": "all federations (any number of federates, connections and delays), programs, physical clocks, physical actions, message delays, disconnections and interleavings of the threads of the federates and of the coordinator", "why_tests_cant": "Concerns all interleavings of several processes on all topologies.", "anchors": ["core/federated/federate.c:lf_send_next_event_tag,bounded_NET,handle_tagged_message,handle_tag_advance_grant,handle_provisional_tag_advance_grant,lf_latest_tag_confirmed", "core/threaded/reactor_threaded.c:_lf_next_locked,_lf_initialize_start_tag", "core/threaded/scheduler_sync_tag_advance.c:_lf_sched_advance_tag_locked", "core/federated/RTI/rti_remote.c:handle_timed_message,handle_next_event_tag,handle_latest_tag_confirmed"]}
{"id": "C61", "title": "The adaptive scheduler executes each triggered reaction once, in the order of levels", "statement": "With the adaptive scheduler, at each tag every triggered reaction is executed exactly once and no other, a reaction starts only when all reactions of lower levels executed at this tag have finished, the tag advances only when nothing is left and no reaction executes, the program neither aborts nor accesses memory outside of its arrays, and the workers get on until they execute a reaction, wait for the next tag or end.", "quantifier": "all numbers of workers, sets of reactions and levels, measured times, random numbers and interleavings of the threads", "why_tests_cant": "Concerns all interleavings of several threads that share counters without a lock, for all measurements.", "anchors": ["core/threaded/scheduler_adaptive.c:lf_sched_get_ready_reaction,worker_assignments_get_or_lock,get_reaction,worker_assignments_put,worker_states_lock,worker_states_awaken_locked,worker_states_finished_with_level_locked,worker_states_sleep_and_unlock,advance_level_and_unlock,set_level,try_advance_level,data_collection_end_tag,compute_number_of_workers,get_nums_workers_neighboring_state,lf_scheduler_trigger_reaction"]}
{"id": "C62", "title": "The results of a program do not depend on how it is scheduled", "statement": "A program whose reactions are ordered by their dependencies wherever one writes what another one reads or writes, and whose inputs are given, has the same memory (states of reactors, values of ports, scheduled events) at the end of each tag whichever scheduler executes it, with however many workers, however the accesses of reactions that execute at the same time alternate, and also without threads: namely that of the reactions executed one after the other in an order that agrees with the dependencies.", "quantifier": "all programs, schedulers (non-preemptive, earliest deadline first, adaptive, without threads), numbers of workers and interleavings of accesses to memory", "why_tests_cant": "Two schedules of one program differ in exponentially many ways; tests see a few of them.", "anchors": ["core/threaded/scheduler_NP.c:lf_sched_get_ready_reaction", "core/threaded/scheduler_GEDF_NP.c:lf_sched_get_ready_reaction", "core/threaded/scheduler_adaptive.c:lf_sched_get_ready_reaction", "core/reactor.c:_lf_do_step,_lf_trigger_reaction", "core/reactor_common.c:schedule_output_reactions,_lf_pop_events,_lf_start_time_step"]}
{"id": "C63", "title": "The tools read what tracing has written", "statement": "On machines with the least significant byte first and 64-bit numbers aligned to 8 bytes, the tools read from a trace file exactly the start time, the objects registered before the first records were written to the file (with descriptions of at most 1023 characters), and the records of all tracepoints, those of each thread in order; from a file that ends early they read exactly the flushes that are in it as a whole, or report a failure; and they never write outside of their buffers when they read a file that a program has written, in whole or in part.", "quantifier": "all contents of trace files (objects, descriptions, records, bytes between the fields of structs in memory), all numbers of threads and interleavings of their tracepoints, all points at which the program stops to exist", "why_tests_cant": "All values of all fields, all interleavings and all lengths of a file that is cut off.", "anchors": ["trace/impl/src/trace_impl.c:write_trace_header,flush_trace_locked,lf_tracing_register_trace_event,lf_tracing_tracepoint", "core/tracepoint.c:call_tracepoint", "util/tracing/trace_util.c:read_header,read_trace,get_object_description,get_trigger_name", "include/core/tracepoint.h:trace_record_t", "trace/api/trace.h:trace_record_nodeps_t"]}
{"id": "C64", "title": "Physical time on microcontrollers never goes back and follows the hardware", "statement": "On platforms whose hardware counters are shorter than 64 bits, successive readings of physical time never decrease, and each reading is the time at some moment of the call, up to the resolution of the clock, also when the counter wraps around in the meantime.", "quantifier": "all times of readings, all moments at which the counter wraps around and interrupts are served, all frequencies and sizes of counters", "why_tests_cant": "The counters wrap around after hours; the interleavings of a reading with a wrap are microseconds wide.", "anchors": ["low_level_platform/impl/src/lf_arduino_support.c:_lf_clock_gettime", "low_level_platform/impl/src/lf_nrf52_support.c:_lf_clock_gettime,lf_timer_event_handler", "low_level_platform/impl/src/lf_zephyr_clock_counter.c:_lf_clock_gettime,overflow_callback", "low_level_platform/impl/src/lf_zephyr_clock_kernel.c:TICKS_TO_NSEC"]}
{"id": "C65", "title": "Critical sections and atomic operations on microcontrollers exclude interrupts", "statement": "While a program or an interrupt service routine is in a critical section nothing else executes; no update of a shared variable made in critical sections, or by the atomic operations, is lost; entering and leaving critical sections, which may be nested, always succeeds; and interrupts are enabled when all critical sections have been left.", "quantifier": "all programs and interrupt service routines with nested critical sections, all moments of interrupts, nested interrupts, and changes of threads", "why_tests_cant": "An interrupt between two instructions cannot be provoked by tests.", "anchors": ["low_level_platform/impl/src/lf_zephyr_support.c:lf_disable_interrupts_nested,lf_enable_interrupts_nested", "low_level_platform/impl/src/lf_patmos_support.c:lf_disable_interrupts_nested,lf_enable_interrupts_nested", "low_level_platform/impl/src/lf_rp2040_support.c:lf_disable_interrupts_nested,lf_enable_interrupts_nested", "low_level_platform/impl/src/lf_nrf52_support.c:lf_disable_interrupts_nested,lf_enable_interrupts_nested", "low_level_platform/impl/src/lf_arduino_support.c:lf_disable_interrupts_nested,lf_enable_interrupts_nested", "low_level_platform/impl/src/lf_atomic_irq.c:lf_atomic_fetch_add,lf_atomic_bool_compare_and_swap", "core/reactor.c:lf_critical_section_enter,lf_critical_section_exit"]}
{"id": "C66", "title": "Priorities and times are handed over to the operating system faithfully", "statement": "Priorities from 0 to 99 are mapped to the range of the platform: the ends to its ends, a higher one never to a less urgent one, each as near to its place as integers can be; others are rejected. A time that is not negative becomes a valid time of the operating system and back without a change.", "quantifier": "all priorities and ranges of the platform, in both directions; all times", "why_tests_cant": "All values, in particular at the ends of the ranges.", "anchors": ["low_level_platform/impl/src/lf_platform_util.c:map_priorities", "low_level_platform/impl/src/lf_unix_clock_support.c:convert_ns_to_timespec,convert_timespec_to_ns"]}
{"id": "C67", "title": "Condition variables between the cores of the RP2040", "statement": "A core that waits for a condition variable and is notified after it began to wait goes on, also when the notification comes from an interrupt or between unlocking the mutex and waiting; while it waits the mutex is released, and when it goes on it has locked it again.", "quantifier": "all interleavings of the cores and of interrupts that notify", "why_tests_cant": "A notification between two instructions cannot be provoked by tests.", "anchors": ["low_level_platform/impl/src/lf_rp2040_support.c:lf_cond_wait,lf_cond_broadcast,_lf_cond_timedwait,lf_mutex_lock,lf_mutex_unlock"]}
{"id": "C68", "title": "With decentralized coordination, messages in time are processed at their tags", "statement": "In a federation with decentralized coordination, if messages and notices of absence come in before physical time exceeds their tag by the safe-to-advance offset of the receiving federate (and payloads before the waits for the ports are over), then each message is processed by the receiving reactions at exactly its tag, in order, none is lost or reported as tardy, the federate does not advance past the tag of a message that is being read, and it waits no longer than the offset.", "quantifier": "all programs with any number of network input ports, offsets, arrival times, interleavings of the threads that read messages with the execution, and local events", "why_tests_cant": "All arrival times and interleavings; the offsets are chosen per program.", "anchors": ["core/federated/federate.c:handle_tagged_message,update_last_known_status_on_input_port,handle_port_absent_message,lf_update_max_level,update_ports_from_staa_offsets", "core/threaded/reactor_threaded.c:_lf_next_locked,wait_until,_lf_increment_tag_barrier_locked,_lf_decrement_tag_barrier_locked", "core/reactor_common.c:_lf_pop_events,_lf_schedule_at_tag,_lf_insert_reactions_for_trigger_immediately"]}
{"id": "C69", "title": "With decentralized coordination, tardy messages are reported, and not lost", "statement": "In a federation with decentralized coordination, whenever messages come in, none is processed before its tag, and the receiving reactions are told that a message is tardy if and only if it is processed after its tag; the federate does not advance past the tag of a message that is being read. If the messages of each port come in in order, each is processed with its own payload, at increasing tags, a tardy one at the next free microstep, unless the federate has come to the time of the stop tag.", "quantifier": "all programs with any number of network input ports, offsets, arrival times, interleavings of the threads that read messages with the execution, and local events", "why_tests_cant": "All arrival times and interleavings.", "anchors": ["core/federated/federate.c:handle_tagged_message,schedule_message_received_from_network_locked,update_last_known_status_on_input_port", "core/threaded/reactor_threaded.c:_lf_increment_tag_barrier_locked,_lf_decrement_tag_barrier_locked,lf_schedule_token", "core/reactor_common.c:_lf_pop_events,_lf_schedule_at_tag,_lf_insert_reactions_for_trigger_immediately"]}
{"id": "C70", "title": "Reactions are told about tardy messages", "statement": "In a federation with decentralized coordination, the tardiness handler of a reaction is invoked instead of its body exactly when the reaction is triggered by a message that is processed after its tag, directly or through reactions that were told about it and have no handler for it; otherwise its body (or the handler of its missed deadline) is invoked.", "quantifier": "all programs, sequences of tags, orders in which reactions are executed, messages that come in during a tag", "why_tests_cant": "The marks are passed on along all paths between reactions and stay from tag to tag; orders of execution differ from run to run.", "anchors": ["core/reactor_common.c:schedule_output_reactions,_lf_pop_events,_lf_insert_reactions_for_trigger", "core/threaded/reactor_threaded.c:_lf_worker_handle_STP_violation_for_reaction,_lf_worker_handle_deadline_violation_for_reaction,_lf_worker_handle_violations,_lf_worker_invoke_reaction"]}
{"id": "C71", "title": "The results of a federation do not depend on timing", "statement": "In a federation with centralized coordination whose connections without delay form no cycle, two executions of a program agree on every federate as far as both have got: the tags it executes, and the inputs that are present at them with their values, are the same, whatever the clocks, the delays of messages, the interleavings of the threads, and the option -fast; a federate that has ended has executed the same in every execution. They agree with the sequential execution of the program, in which there is no RTI, no network, no clock and no thread.", "quantifier": "all programs (what a federate sends and schedules at a tag is any function of the tags and inputs it has seen), topologies without zero-delay cycles, pairs of executions, interleavings, clocks, delays of messages", "why_tests_cant": "Two arbitrary executions are compared; no set of runs covers all timings.", "anchors": ["core/federated/RTI/rti_remote.c:handle_timed_message,handle_latest_tag_confirmed,handle_next_event_tag,notify_tag_advance_grant", "core/federated/RTI/rti_common.c:tag_advance_grant_if_safe,notify_advance_grant_if_safe", "core/federated/federate.c:handle_tagged_message,handle_tag_advance_grant,lf_send_next_event_tag,lf_latest_tag_confirmed,lf_send_tagged_message", "core/threaded/reactor_threaded.c:_lf_next_locked,wait_until,send_next_event_tag", "core/reactor_common.c:_lf_pop_events"]}
{"id": "C72", "title": "A federation does not get stuck and comes to its end", "statement": "A federation with centralized coordination whose connections without delay form no cycle gets stuck only when all of its federates have come to the stop tag and have resigned: in every other state a thread of a federate or of the RTI can do something that is more than to go on waiting, now or when physical time has passed. An execution in which what can go on does go on, and in which threads do not wake up for nothing for ever, comes to this end, and every federate has then executed what the sequential execution of the program says. A federate that executes tags does not keep another one from executing its own, even when other federates have left.", "quantifier": "all programs (what a federate sends and schedules at a tag is any function of the tags and inputs it has seen) with a stop tag and a complete sequential execution, topologies without zero-delay cycles, states, interleavings, clocks, delays of messages", "why_tests_cant": "That something never happens, in any interleaving of any length, cannot be seen in finitely many runs.", "anchors": ["core/federated/RTI/rti_remote.c:handle_timed_message,handle_latest_tag_confirmed,handle_next_event_tag,handle_federate_resign,notify_tag_advance_grant", "core/federated/RTI/rti_common.c:tag_advance_grant_if_safe,notify_advance_grant_if_safe,notify_downstream_advance_grant_if_safe", "core/federated/federate.c:handle_tagged_message,handle_tag_advance_grant,lf_send_next_event_tag,lf_latest_tag_confirmed,lf_terminate_execution", "core/threaded/reactor_threaded.c:_lf_next_locked,wait_until,send_next_event_tag"]}
{"id": "C73", "title": "Payloads are counted correctly by reactions that execute in parallel", "statement": "When reactions that execute in parallel set outputs, with new payloads or with the tokens of their inputs, no freed token is accessed, no payload is freed twice, and the message at a port stays allocated until the port is set again.", "quantifier": "all programs of reactions that set ports, numbers of workers, interleavings of the steps of their operations on tokens, sizes of the recycling bin", "why_tests_cant": "Two reactions have to be within a few instructions of each other, and the effect shows when the ports are set the next time.", "anchors": ["core/lf_token.c:_lf_replace_template_token,_lf_done_using,_lf_free_token,_lf_get_token,_lf_new_token,_lf_initialize_token_with_value", "include/api/reaction_macros.h:lf_set_token,lf_set,lf_set_array"]}
{"id": "C74", "title": "An RTI with authentication accepts only federates of its federation", "statement": "When the RTI and the federates are compiled with authentication, the RTI accepts a connection only if a federate that knows the federation ID has answered its random number, under the ID of this federate; a federate goes on only if the RTI of its federation has answered its random number; an answer is good for one connection; federates of the federation are accepted; and nobody else joins, whatever is sent on the network by somebody who does not know the federation ID.", "quantifier": "all numbers of federates of several federations, all interleavings, all messages that can be made by somebody who reads and changes everything that is sent and does not know the key of the code", "why_tests_cant": "An attacker is not in the test suite; all sequences of messages have to be considered.", "anchors": ["core/federated/RTI/rti_remote.c:authenticate_federate,lf_connect_to_federates,receive_and_check_fed_id_message,send_reject", "core/federated/federate.c:perform_hmac_authentication,lf_connect_to_rti"]}
{"id": "C75", "title": "Federates connect directly to the federates of their federation", "statement": "A federate accepts a direct connection from each federate of its federation that it expects, in any order, records each with the ID it has announced, rejects everybody else, and memory is not accessed out of bounds whatever is sent to its port; a federate connects to the port that the other one has advertised to the RTI; it ends its attempts when it is connected, or when the time for connecting is up, and leaves no open sockets behind.", "quantifier": "all federation IDs, federate IDs, messages, orders of connections, interleavings of advertisements and queries, results of attempts", "why_tests_cant": "Any bytes can arrive at the port in any order; tests have two or three well-behaved federates.", "anchors": ["core/federated/federate.c:lf_handle_p2p_connections_from_federates,lf_connect_to_federate,listen_to_federates,lf_create_server", "core/federated/RTI/rti_remote.c:handle_address_query,handle_address_ad"]}
{"id": "C76", "title": "A federation with decentralized coordination computes what its program says, if the offsets are large enough", "statement": "In a federation with decentralized coordination, when for every connection the delay and the STA and STAA offsets of the receiver cover the time by which the sender may be late with the tag, the error of the clocks and the latency of the network: no message is processed late, changed or lost; what a federate executes, the tags and the inputs with their values, does not depend on offsets, clocks, latencies and interleavings; and it is what the sequential execution of the program says, and what the same program executes with centralized coordination.", "quantifier": "all programs (what a federate sends and schedules at a tag is any function of the tags and inputs it has seen) without cycles of connections without delay, all offsets and bounds, executions, interleavings, clocks, latencies", "why_tests_cant": "Whether offsets are large enough shows only in the worst case of clocks, network and processors; two arbitrary executions are compared.", "anchors": ["core/federated/federate.c:handle_tagged_message,handle_port_absent_message,lf_send_tagged_message,lf_send_port_absent_to_federate,lf_stall_advance_level_federation,update_ports_from_staa_offsets,update_last_known_status_on_input_port,mark_inputs_known_absent", "core/threaded/reactor_threaded.c:_lf_next_locked,wait_until,get_next_event_tag", "core/reactor_common.c:_lf_pop_events"]}
{"id": "C77", "title": "A program without threads on a microcontroller sleeps until the next event and does not miss what interrupts schedule", "statement": "On a microcontroller without threads, when no event is due, the program sleeps until the time of the next event. It advances to this event only when its time has come and no interrupt service routine has scheduled anything earlier in the meantime; when an interrupt service routine schedules something, at whatever moment, the sleep ends at once, however far away the next event is, and the queue is looked at again.", "quantifier": "all wake-up times, moments of interrupts (between any two steps of the function), numbers of interrupts, contents of flags, semaphores and timers left from before; for each platform", "why_tests_cant": "An interrupt has to come between two particular instructions, or a sleep has to last longer than an hour.", "anchors": ["low_level_platform/impl/src/lf_patmos_support.c:_lf_interruptable_sleep_until_locked", "low_level_platform/impl/src/lf_arduino_support.c:_lf_interruptable_sleep_until_locked", "low_level_platform/impl/src/lf_zephyr_clock_kernel.c:_lf_interruptable_sleep_until_locked", "low_level_platform/impl/src/lf_zephyr_clock_counter.c:_lf_interruptable_sleep_until_locked", "low_level_platform/impl/src/lf_rp2040_support.c:_lf_interruptable_sleep_until_locked", "low_level_platform/impl/src/lf_nrf52_support.c:_lf_interruptable_sleep_until_locked", "low_level_platform/impl/src/lf_flexpret_support.c:_lf_interruptable_sleep_until_locked", "core/reactor.c:next"]}
{"id": "C78", "title": "Clock synchronization during the execution keeps the clocks of the federates close, whatever datagrams are lost", "statement": "While the program runs, the RTI synchronizes the clocks of the federates again and again with datagrams. Whatever datagrams are lost, a federate corrects its clock only from messages that belong to one exchange, so that the error of its clock never exceeds what it was at the beginning or half the largest delay of the network; and the loss of a datagram costs an exchange but does not end the synchronization.", "quantifier": "all numbers of federates, errors of clocks, delays, losses, interleavings of the threads and numbers of rounds", "why_tests_cant": "Datagrams are hardly ever lost on the loopback interface, and the effects on the clock are within the noise.", "anchors": ["core/federated/clock-sync.c:listen_to_rti_UDP_thread", "core/federated/clock-sync.c:handle_T1_clock_sync_message", "core/federated/clock-sync.c:handle_T4_clock_sync_message", "core/federated/RTI/rti_remote.c:clock_synchronization_thread", "core/federated/RTI/rti_remote.c:handle_physical_clock_sync_message", "core/federated/network/net_util.c:read_from_socket"]}
{"id": "C79", "title": "A federate connects to the RTI that its command line names, or refuses the command line", "statement": "For every text given with the option --rti, either the text is an address [user@]host[:port] and the federate connects to exactly that host and port, or the federate reports an error and does not start. No text overflows the buffers it is copied to.", "quantifier": "all texts of all lengths, earlier options, and hosts and ports compiled into the program", "why_tests_cant": "There are infinitely many texts; tests give the addresses that people write, and the faults are in the others.", "anchors": ["core/federated/federate.c:lf_parse_rti_addr", "core/federated/federate.c:lf_connect_to_rti", "core/federated/network/net_util.c:extract_rti_addr_info", "core/federated/network/net_util.c:extract_match_groups", "core/federated/network/net_util.c:match_regex", "core/federated/network/net_util.c:validate_host", "core/federated/network/net_util.c:validate_port", "core/federated/network/net_util.c:validate_user"]}
{"id": "C80", "title": "Memory is freed once at the end of the program", "statement": "When a program ends normally, all memory that was allocated for its reactors, its environments and its events is freed, none of it twice, and none is used after it was freed; before the end, no use of the allocation functions that follows their documentation accesses memory that is not allocated.", "quantifier": "all histories of creating and freeing reactors, allocating memory on them, initializing environments of all sizes and configurations, scheduling and recycling events, and adding watchdogs", "why_tests_cant": "A double free or a leak depends on which reactors, watchdogs and environments there are; tests run particular programs, and a leak or a double free at exit often goes unnoticed.", "anchors": ["core/reactor_common.c:lf_allocate", "core/reactor_common.c:lf_new_reactor", "core/reactor_common.c:lf_free", "core/reactor_common.c:lf_free_reactor", "core/reactor_common.c:lf_free_all_reactors", "core/reactor_common.c:termination", "core/reactor_common.c:lf_get_new_event", "core/reactor_common.c:lf_recycle_event", "core/environment.c:environment_init", "core/environment.c:environment_free", "core/utils/pqueue_tag.c:pqueue_tag_free"]}
{"id": "C81", "title": "Events of other threads and stop requests reach a program that waits", "statement": "In a program with threads, while the runtime sleeps until the next event, an event that another thread schedules or a stop that is requested is noticed at once; no event is processed before its time, out of order, twice or not at all; and a stop requested from anywhere ends the program at a stop tag after its shutdown reactions have been executed exactly once.", "quantifier": "all interleavings of workers, of threads that schedule events, of callers of lf_request_stop, of spurious wake-ups and of the passing of time; all timeouts and options", "why_tests_cant": "A wake-up is lost, or a stop races with the advance of the tag, in windows of nanoseconds between critical sections; tests hit them rarely and cannot reproduce them.", "anchors": ["core/threaded/reactor_threaded.c:wait_until", "core/threaded/reactor_threaded.c:get_next_event_tag", "core/threaded/reactor_threaded.c:_lf_next_locked", "core/threaded/reactor_threaded.c:lf_request_stop", "core/threaded/reactor_threaded.c:lf_notify_of_event", "core/threaded/scheduler_sync_tag_advance.c:_lf_sched_advance_tag_locked", "core/threaded/scheduler_sync_tag_advance.c:should_stop_locked", "core/reactor_common.c:lf_set_stop_tag", "core/reactor_common.c:_lf_advance_tag", "lib/schedule.c:lf_schedule_token"]}
{"id": "C82", "title": "A federate or an RTI that goes away does not leave the others hanging, and failures are reported", "statement": "Whenever a federate resigns, fails or crashes, at whatever byte of whatever message, the RTI handles exactly the complete messages it sent before; the federates that remain go on or are told to end, the RTI ends when all have left, and its exit code tells whether something went wrong; if the RTI goes away, the federates end.", "quantifier": "all sequences of messages, all crash points within them, all interleavings of the threads of the RTI, all topologies without zero-delay cycles", "why_tests_cant": "A crash can fall on any byte of any message and meet any state of all other federates; tests inject a few crashes at convenient moments.", "anchors": ["core/federated/RTI/rti_remote.c:federate_info_thread_TCP", "core/federated/RTI/rti_remote.c:handle_federate_failed", "core/federated/RTI/rti_remote.c:handle_federate_resign", "core/federated/RTI/rti_remote.c:wait_for_federates", "core/federated/RTI/main.c:termination", "core/federated/RTI/main.c:main", "core/federated/federate.c:listen_to_rti_TCP", "core/federated/federate.c:lf_send_next_event_tag", "core/federated/network/net_util.c:read_from_socket_fail_on_error"]}
{"id": "C83", "title": "Ports in Python: what is read is what was set, alive, and freed when unused", "statement": "A Python reaction that reads port.value gets the object that the port was set to last, and the object is alive however long the port object is kept; it is freed when neither the program nor a port refers to it; port.is_present tells whether the port was set at the current tag and port.value is None if not; port[i] and iteration give the channels of a multiport in order.", "quantifier": "all sequences of operations of Python reactions on their port objects and values, all widths of multiports", "why_tests_cant": "Whether a reference is counted once too often or too rarely shows only when the last reference goes, which depends on everything the program does with an object; tests keep few objects and hold on to them.", "anchors": ["python/lib/python_port.c:py_port_set", "python/lib/python_port.c:py_port_capsule_get_item", "python/lib/python_port.c:py_port_iter_next", "python/lib/python_port.c:py_port_capsule_dealloc", "python/lib/pythontarget.c:convert_C_port_to_py", "python/lib/pythontarget.c:py_schedule", "core/lf_token.c:_lf_free_token_value"]}
{"id": "C84", "title": "Tags and times in Python are those of the runtime", "statement": "A Tag in Python has the time and the microstep it was made with, or making it is an error; the operators and tag_compare order tags by time and then by microstep; different tags have different texts; the time at which a message arrived is what a reaction reads.", "quantifier": "all integers, all pairs of tags, all byte orders and sizes of long", "why_tests_cant": "The conversions depend on the size of types and the order of bytes of the machine, and fail for values that tests do not use.", "anchors": ["python/lib/python_tag.c:Tag_init", "python/lib/python_tag.c:Tag_richcompare", "python/lib/python_tag.c:py_tag_compare", "python/lib/python_tag.c:Tag_str", "python/include/python_capsule_extension.h:FEDERATED_CAPSULE_MEMBER", "core/tag.c:lf_tag_compare"]}
{"id": "C85", "title": "Cycles without delay between federates: no message too late, one result, no deadlock", "statement": "With centralized coordination, when federates are connected in cycles without delay and execute a tag with provisional grants: no message of the tag arrives after the reactions that read it, and none ends a federate; the states and inputs are those that the program says, whatever the timing; if the levels of all federates have a common order, every federate completes the tag; if a set of connections wait for each other, none of their federates does.", "quantifier": "all federations (any number of federates, connections, levels, reactions), all interleavings of grants, messages, notices of absence and the execution of levels, and all delays of messages", "why_tests_cant": "Which federate waits for which, and which message overtakes which level, depends on the timing of all federates together; a test sees a few interleavings of a few federates.", "anchors": ["core/federated/federate.c:lf_update_max_level", "core/federated/federate.c:lf_stall_advance_level_federation", "core/federated/federate.c:handle_provisional_tag_advance_grant", "core/federated/federate.c:handle_port_absent_message", "core/federated/federate.c:handle_tagged_message", "core/federated/federate.c:lf_send_port_absent_to_federate", "core/federated/RTI/rti_common.c:tag_advance_grant_if_safe", "core/federated/RTI/rti_common.c:is_in_zero_delay_cycle"]}
{"id": "C86", "title": "Whole executions with cycles without delay: no message too late, one result, no deadlock", "statement": "With centralized coordination, when federates are connected in cycles without delay, and also by connections with delay, then at every tag of the execution: no message arrives after the reactions that read it, and none ends a federate; the states and inputs at each tag are those that the program says, whatever the timing, and two executions agree; if the levels of all federates have a common order, federates go on to every later tag.", "quantifier": "all federations (any number of federates, connections, levels, reactions, tags), all interleavings of grants, messages, notices of absence and the execution of levels and tags, and all delays of messages", "why_tests_cant": "A message for a later tag may overtake anything: federates are at different tags, and grants, notices and messages cross. A test sees a few interleavings of a few tags.", "anchors": ["core/federated/federate.c:lf_update_max_level", "core/federated/federate.c:lf_stall_advance_level_federation", "core/federated/federate.c:handle_provisional_tag_advance_grant", "core/federated/federate.c:handle_tag_advance_grant", "core/federated/federate.c:handle_port_absent_message", "core/federated/federate.c:handle_tagged_message", "core/federated/federate.c:lf_send_port_absent_to_federate", "core/federated/RTI/rti_common.c:tag_advance_grant_if_safe", "core/threaded/reactor_threaded.c:_lf_next_locked"]}
{"id": "C87", "title": "The RTI understands its command line", "statement": "Documented options of the RTI, in short or long form, each with its documented arguments and in any order, set exactly what they name and nothing else, a later one overriding an earlier one; words that are not options, numbers of federates that are not positive, ports that are not from 1 to 65534, missing arguments, and authentication in an RTI built without it are refused.", "quantifier": "all lists of options, all values of their arguments, all spellings, all other words, both builds and all widths of long", "why_tests_cant": "Command lines are arbitrary lists of strings, and one option may swallow the word that follows it; tests try a few lines.", "anchors": ["core/federated/RTI/main.c:process_args", "core/federated/RTI/main.c:process_clock_sync_args", "core/federated/RTI/main.c:usage"]}
{"id": "C88", "title": "The summary of a trace agrees with its records", "statement": "The summary that the trace-to-CSV tool writes counts, among the records between the given times, the events of each type, the calls of schedule for each trigger and the user-defined events with each label, and says of the executions of each reaction, of the waits of each worker and of the values with each label how many there are and what their sum, average, greatest and least is; making it never writes outside of the memory of the tool.", "quantifier": "all tables of objects, all lists of records (any number of reactors, reactions, triggers, labels and workers, any times and values), and all given times", "why_tests_cant": "Every number depends on the whole list of records, and on how records of different objects and workers are interleaved.", "anchors": ["util/tracing/trace_to_csv.c:read_and_write_trace", "util/tracing/trace_to_csv.c:write_summary_file", "util/tracing/trace_util.c:get_object_description", "util/tracing/trace_util.c:get_trigger_name", "include/core/tracepoint.h"]}
{"id": "C89", "title": "Wave files are read as they are", "statement": "Reading a wave file gives the samples of the file, their number and the number of channels, whatever chunks come before the data; the result is NULL for files that cannot be opened or whose format is not supported; there are always as many samples in memory as the result says, and nothing is read or written outside of the memory of the program.", "quantifier": "all files (any sequence of bytes, any number and size of chunks), all contents of memory before the call, and any number of calls", "why_tests_cant": "The chunks of a file, their sizes and where it ends are arbitrary, and what a wrong size does depends on what was in memory.", "anchors": ["util/wave_file_reader.c:read_wave_file", "util/wave_file_reader.h:lf_waveform_t"]}
{"id": "C90", "title": "Waveforms are heard in time and in order", "statement": "Playing a waveform at a time makes its frames heard one after the other, each once, from the sample on that belongs to the time, also if the waveform is longer than the buffer of the audio system; playing calls wait if the time is after the current buffer and play at once, with result 1, if it is before it; samples never wrap around; nothing is read outside of the memory of the waveforms.", "quantifier": "all sequences of calls and callbacks of the audio system, all waveforms (any length and number of channels), volumes and times", "why_tests_cant": "What is heard of a waveform depends on all callbacks and calls after it and on which note is in which of the eight places.", "anchors": ["util/audio_loop_mac.c:callback", "util/audio_loop_mac.c:lf_play_audio_waveform", "util/audio_loop_linux.c:callback", "util/audio_loop_linux.c:run_audio_loop", "util/audio_loop_linux.c:lf_play_audio_waveform", "util/audio_loop_linux.c:add_to_sound"]}
{"id": "C91", "title": "Messages are printed as documented", "statement": "A message is printed on stdout, or given to the registered function, with the identification of the federate and the prefix of its kind, followed by a newline, exactly if its level is not above the greater of the compiled and the registered level; errors are always printed; fatal errors are printed and then end the process with status 1; failures of the system are described with the error that occurred.", "quantifier": "all formats, arguments, levels, federates and names, with or without a registered function", "why_tests_cant": "Formats, names and arguments are arbitrary text, and whether a buffer is large enough depends on all of them.", "anchors": ["core/utils/util.c:_lf_message_print", "core/utils/util.c:lf_print_error_and_exit", "core/utils/util.c:lf_print_error_system_failure", "core/utils/util.c:lf_register_print_function", "logging/api/logging_macros.h:LF_PRINT_LOG"]}
{"id": "C92", "title": "The sensor simulator shows what is posted and schedules what is typed", "statement": "Messages and ticks are shown in the order in which they were posted, each once, until the simulator ends, within their windows, and memory does not grow with their number; registering a key gives the documented codes; typing a key schedules the action that was registered first for it and then the one for any key, with the key as value; starting a second time has no effect, and ending is safe.", "quantifier": "all interleavings of posts and the thread that shows messages, all texts, all sequences of registrations and keys", "why_tests_cant": "Posts come from any thread at any time, and the order of messages depends on a queue that is shared with the thread that empties it.", "anchors": ["util/sensor_simulator.c:_lf_sensor_post_message", "util/sensor_simulator.c:_lf_sensor_simulator_thread", "util/sensor_simulator.c:register_sensor_key", "util/sensor_simulator.c:_lf_sensor_read_input", "util/sensor_simulator.c:start_sensor_simulator", "util/sensor_simulator.c:end_sensor_simulator"]}
{"id": "C93", "title": "Traces are uploaded to InfluxDB as they are", "statement": "The arguments of a request are accepted exactly if they are lines with a measurement, tags, at least one field and perhaps a time; what is sent for them is read by InfluxDB as the same lines, whatever characters the names and strings have and however long they are; the tool sends every record that is not about federates in a request of its own, in order, stops at the first failure, and prints how many records were written.", "quantifier": "all names, strings, numbers and sequences of arguments, all traces and all answers of the server", "why_tests_cant": "Names are arbitrary text that must be escaped, and the buffer grows at positions that depend on the lengths of all texts before.", "anchors": ["util/tracing/influxdb.h:_format_line2", "util/tracing/influxdb.h:_escaped_append", "util/tracing/influxdb.h:post_curl", "util/tracing/trace_to_influxdb.c:read_and_write_trace"]}
{"id": "C94", "title": "Posting a line over HTTP ends and tells whether it was accepted", "statement": "Posting a line returns in all cases; it returns 0 if and only if the server answered with a status from 200 to 299, and otherwise the status or a negative number that tells what failed, however the bytes of the answer come in; the server reads the database, the user, the password, the token and the line that were given; the line and the memory used are freed and the connection is closed on every way.", "quantifier": "all answers and their pieces, errors and ends of the connection at any byte, all clients and lines, all failures of the system", "why_tests_cant": "The pieces in which an answer arrives and the point where a connection breaks are up to the network, and the length of the headers depends on all names.", "anchors": ["util/tracing/influxdb.h:post_http_send_line"]}
{"id": "C95", "title": "Generated Rust code knows every type of trace event", "statement": "The Rust code generated from the types of trace events compiles; it converts the number of each type to a variant that has this number and is displayed with the description of the type, and no other number; the name of a variant consists of the words of the description, made within the memory of a copy.", "quantifier": "all lists of descriptions", "why_tests_cant": "Descriptions are changed whenever types are added; whether names collide or text needs escaping depends on all of them.", "anchors": ["util/tracing/codegen/src/tracepoint_to_rs.c:to_camel_case", "util/tracing/codegen/src/tracepoint_to_rs.c:do_for_each_camelcase", "util/tracing/codegen/src/tracepoint_to_rs.c:main", "trace/api/types/trace_types.h:trace_event_names"]}
{"id": "C96", "title": "The file for the event viewer of Chrome is JSON and shows every record", "statement": "What trace_to_chrome writes is JSON; it has an event for each record of the trace that is not of the communication between federates and not before the start, in the order of the trace, with the names, phases, processes, threads and times of the record; begins and ends match; every row has a name of its own; with -p all times are physical. The file is written to the working directory under the name of the trace file with another extension.", "quantifier": "all tables of objects, all lists of records, all start times, options and paths", "why_tests_cant": "Descriptions come from users, numbers and times from executions; whether the text can be read depends on all of them.", "anchors": ["util/tracing/trace_to_chrome.c:read_and_write_trace", "util/tracing/trace_to_chrome.c:write_metadata_events", "util/tracing/trace_to_chrome.c:main", "util/tracing/trace_util.c:get_object_description", "util/tracing/trace_util.c:get_trigger_name", "util/tracing/trace_util.c:root_name"]}
{"id": "C97", "title": "An RTI and its federates find each other's ports", "statement": "An RTI that is given no port listens on the first of 16 default ports that it can get, and gives up only if each was refused three times; an RTI that is given a port takes that one or, after a minute of tries, none; its port for clock synchronization is the next one. A federate that is given no port finds the RTI on whichever default port it listens, whoever else answers on the others, if 16 attempts fit in the minute; a federate that is given a port finds the RTI there. The search ends after at most 122 attempts.", "quantifier": "all histories of ports being taken and released, all answers at all times on all ports, all durations of attempts", "why_tests_cant": "Which ports are free and who listens on them changes with the machine and with time; the failure appears only when several federations run at once.", "anchors": ["core/federated/RTI/rti_remote.c:create_rti_server", "core/federated/RTI/rti_remote.c:start_rti_server", "core/federated/federate.c:lf_connect_to_rti", "include/core/federated/network/net_common.h:MAX_NUM_PORT_ADDRESSES"]}
{"id": "C98", "title": "Every thread has an identifier and a trace buffer of its own, and every worker is run once", "statement": "No two threads of a program or of an RTI have the same identifier, and threads of users have none; each thread that the runtime creates has a trace buffer of its own, so that no tracepoint writes outside of the buffers. The number of workers is that of the command line, else that of the program, else the number of cores but not more than can be of use; every worker of every environment is run exactly once, threads that were created are waited for exactly once, workers that work at the same time have different numbers below the number of workers, and the last one to end reports the end, once.", "quantifier": "all numbers of environments, workers, watchdogs and federates, all orders in which threads begin and end", "why_tests_cant": "The order in which threads take identifiers depends on the schedule; the buffers are too few only for some combinations of features.", "anchors": ["core/threaded/reactor_threaded.c:determine_number_of_workers", "core/threaded/reactor_threaded.c:lf_reactor_c_main", "core/threaded/reactor_threaded.c:worker", "low_level_platform/impl/src/lf_platform_util.c:initialize_lf_thread_id", "core/reactor_common.c:initialize_global", "core/federated/RTI/main.c:main", "trace/impl/src/trace_impl.c:lf_tracing_tracepoint"]}
{"id": "C99", "title": "The tools that convert traces do what their command lines say", "statement": "The tool that writes tables accepts exactly the command lines that are made of names of trace files and of the times at which the conversion begins and ends, each a numeral and a unit, in any order; it converts the last file named, from the last beginning on and before the last end, and all of it by default; it writes two files in the working directory that are named after the trace, and never overwrites a trace. The tool that uploads traces uses, for each setting, the value given last or the default, uploads the last file named, and ends with an error if the value of an option, the token or the file is missing.", "quantifier": "all command lines, all names and directories of files, all files that can or cannot be opened, all contents of memory in front of arguments", "why_tests_cant": "There are infinitely many command lines; what is in memory in front of an argument depends on the system.", "anchors": ["util/tracing/trace_to_csv.c:process_args", "util/tracing/trace_to_csv.c:string_to_instant", "util/tracing/trace_to_csv.c:main", "util/tracing/trace_to_influxdb.c:main", "util/tracing/trace_util.c:root_name", "util/tracing/trace_util.c:open_file"]}
{"id": "C100", "title": "Printing and checking a priority queue tells the truth about it", "statement": "The check of a queue accepts it exactly if no element comes before the one above it, whatever the queue contains, and so accepts it after every history of operations that keeps to the rules. Printing a queue shows every element once, in the order of priorities, and dumping shows every element with its place; neither changes what later operations do.", "quantifier": "all queues, of any size and with any elements and priorities, all histories of operations", "why_tests_cant": "A check that is too weak passes every test; that an operation has an effect on later ones shows only in some sequences.", "anchors": ["core/utils/pqueue_base.c:pqueue_dump", "core/utils/pqueue_base.c:pqueue_print", "core/utils/pqueue_base.c:subtree_is_valid", "core/utils/pqueue_base.c:pqueue_is_valid"]}
{"id": "C101", "title": "On Windows time follows the counter of the machine, and waits end at the time that was given", "statement": "The clock shows the time that the counter of the machine stands for, whatever its frequency, and does not go backwards. A wait for a condition variable that reports a timeout has lasted until the given instant, and is not longer than a millisecond beyond it; a signal ends it at once. A program with one thread advances to a tag neither before its time nor later than necessary. Failures are reported.", "quantifier": "all frequencies and readings of the counter, all ways in which floating point operations round, all instants, all times at which waits end", "why_tests_cant": "Machines have few different frequencies, and a wait of more than 49 days is not tested; failures of the operating system cannot be provoked.", "anchors": ["low_level_platform/impl/src/lf_windows_support.c:_lf_initialize_clock", "low_level_platform/impl/src/lf_windows_support.c:_lf_clock_gettime", "low_level_platform/impl/src/lf_windows_support.c:lf_sleep", "low_level_platform/impl/src/lf_windows_support.c:_lf_interruptable_sleep_until_locked", "low_level_platform/impl/src/lf_windows_support.c:_lf_cond_timedwait", "core/reactor.c:next"]}
{"id": "C102", "title": "The arguments of a program take effect, and those of the command line replace the defaults", "statement": "A program runs with the settings that its compiled defaults lead to, changed by the options of the command line: an option that is given replaces the default whatever it is, and one that is not given leaves it. Calling start of a Python module with a list of strings has the same effect as that command line. Wrong options, and wrong arguments of start, are refused.", "quantifier": "all defaults, command lines and initial settings, all arguments of start", "why_tests_cant": "There are infinitely many combinations of defaults and options, and what is found in a variable that is not set differs from run to run.", "anchors": ["core/reactor.c:lf_reactor_c_main", "core/threaded/reactor_threaded.c:lf_reactor_c_main", "core/reactor_common.c:process_args", "python/lib/pythontarget.c:_lf_py_parse_argv_impl", "python/lib/pythontarget.c:py_main"]}
{"id": "C103", "title": "Threads are scheduled as they are told to be, and no other thread is affected", "statement": "Setting the policy and priority of a thread, if it reports success, gives the thread the documented policy and the priority in the range of the operating system, in the order of priorities; a legal request by a program with the permission succeeds; a request that is refused changes nothing; other threads are never affected. Binding a thread to an existing processor makes it run there only.", "quantifier": "all threads, policies, priorities, time slices, ranges of priorities and permissions, all states of the operating system", "why_tests_cant": "Tests run with one range of priorities and mostly without the permission; that a refused call has an effect is not visible in its result.", "anchors": ["low_level_platform/impl/src/lf_linux_support.c:lf_thread_set_cpu", "low_level_platform/impl/src/lf_linux_support.c:lf_thread_set_priority", "low_level_platform/impl/src/lf_linux_support.c:lf_thread_set_scheduling_policy", "low_level_platform/impl/src/lf_zephyr_support.c:lf_thread_set_priority", "low_level_platform/impl/src/lf_zephyr_support.c:lf_thread_set_scheduling_policy"]}
{"id": "C104", "title": "Sleeping on FlexPRET ends at the requested time, however long the program has been running", "statement": "On FlexPRET, whose instructions wait for a value of the lower 32 bits of the clock, sleeping ends neither before the requested time nor, but for the overhead of the function, after it; a time that has passed already ends the sleep at once. This does not depend on how long the program has been running or how far away the time is.", "quantifier": "all times at which the sleep begins, all requested times and durations, all overheads up to an epoch between two waits", "why_tests_cant": "What happens after the first 4.3 seconds differs from what happens before, and the overhead has to fall on the requested time.", "anchors": ["low_level_platform/impl/src/lf_flexpret_support.c:_lf_sleep_common", "low_level_platform/impl/src/lf_flexpret_support.c:lf_sleep", "low_level_platform/impl/src/lf_flexpret_support.c:lf_nanosleep"]}
{"id": "C105", "title": "Where the number of threads is limited, each has its own stack, and a thread too many is refused without harm", "statement": "On Zephyr and the RP2040, where the number of threads is fixed when the program is compiled, every successful creation of a thread, by whichever threads and however they interleave, gives it a stack and handle that no other has, on which the requested function is executed; a creation is refused only when no thread is left, and then it has no effect on anything else: later calls return. Joining waits until the function has returned.", "quantifier": "all numbers of threads, callers, requests and interleavings of their steps; all sequences of creations and joins", "why_tests_cant": "Two calls have to overlap in particular steps, and that a refusal leaves a mutex locked shows only in the next call by another thread.", "anchors": ["low_level_platform/impl/src/lf_zephyr_support.c:lf_thread_create", "low_level_platform/impl/src/lf_rp2040_support.c:lf_thread_create", "low_level_platform/impl/src/lf_rp2040_support.c:lf_thread_join", "low_level_platform/impl/src/lf_rp2040_support.c:core1_entry"]}
{"id": "C106", "title": "Events of inactive modes are neither lost nor duplicated in memory", "statement": "The events that are suspended when a mode is left are all there when it is entered again, each once and in order, whatever other modes have suspended and taken up in the meantime; those of other modes stay suspended. The memory for this is as much as is needed for the most events that have been suspended at one time, and all of it is released once at the end.", "quantifier": "all histories of suspending events and taking up those of a mode, all numbers of events and modes", "why_tests_cant": "The elements of the list are used again and are removed while the list is walked; which pointers are changed depends on the whole history.", "anchors": ["core/modal_models/modes.c:_lf_add_suspended_event", "core/modal_models/modes.c:_lf_remove_suspended_event", "core/modal_models/modes.c:_lf_process_mode_changes", "core/modal_models/modes.c:_lf_terminate_modal_reactors"]}
