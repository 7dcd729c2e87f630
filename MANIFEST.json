{
 "claims": [
  {
   "property": "C01",
   "status": "proved",
   "theorems": [
    "ReactorC.C01_compare_decides_lex_order",
    "ReactorC.C01_compare_total_order",
    "ReactorC.C01_never_least_forever_greatest"
   ],
   "note": "All tags. Comparison is a total lexicographic order with NEVER_TAG least and FOREVER_TAG greatest."
  },
  {
   "property": "C02",
   "status": "proved",
   "theorems": [
    "ReactorC.C02_time_add_saturates",
    "ReactorC.C02_time_add_exact",
    "ReactorC.C02_time_add_overflow",
    "ReactorC.C02_time_add_executes_undefined_overflow"
   ],
   "note": "All pairs of 64-bit times. Result equals the saturating sum; a separate theorem records the inputs on which the C code evaluates an overflowing signed sum."
  },
  {
   "property": "C03",
   "status": "partial",
   "theorems": [
    "ReactorC.C03_tag_add_ge",
    "ReactorC.C03_tag_add_zero",
    "ReactorC.C03_tag_add_mono_left_partial",
    "ReactorC.C03_tag_add_not_mono_on_microstep_overflow",
    "ReactorC.C03_tag_add_mono_right",
    "ReactorC.C03_tag_add_assoc"
   ],
   "note": "Proved for all valid tags except that monotonicity in the left argument needs no microstep overflow; C03_tag_add_not_mono_on_microstep_overflow proves it false there."
  },
  {
   "property": "C04",
   "status": "partial",
   "theorems": [
    "ReactorC.C04_delay_tag_value",
    "ReactorC.C04_delay_tag_no_delay",
    "ReactorC.C04_delay_tag_later_partial",
    "ReactorC.C04_delay_tag_wraps_backwards",
    "ReactorC.C04_delay_tag_mono",
    "ReactorC.C04_delay_tag_valid"
   ],
   "note": "Exact value and monotonicity proved; strict advance needs a microstep below UINT_MAX (C04_delay_tag_wraps_backwards proves it false otherwise)."
  },
  {
   "property": "C05",
   "status": "partial",
   "theorems": [
    "ReactorC.C05_strict_delay_before_later_arrivals_partial",
    "ReactorC.C05_strict_delay_tight",
    "ReactorC.C05_strict_delay_zero_not_strict",
    "ReactorC.C05_strict_delay_negative_modifies"
   ],
   "note": "Proved for positive delays without saturation; false at zero and negative delays (two theorems with witnesses)."
  },
  {
   "property": "C06",
   "status": "proved",
   "theorems": [
    "ReactorC.PQueue.C06_every_history_refines",
    "ReactorC.PQueue.C06_drain_sorted",
    "ReactorC.PQueue.C06_empty_into"
   ],
   "note": "Every history of operations on the array heap refines a bag with extract-min, for any lawful order."
  },
  {
   "property": "C07",
   "status": "proved",
   "theorems": [
    "ReactorC.PQueue.C07_positions_always_correct"
   ],
   "note": "Position callback invariant over every history."
  },
  {
   "property": "C08",
   "status": "proved",
   "theorems": [
    "ReactorC.PQueue.C08_find_same_priority_exact",
    "ReactorC.PQueue.C08_find_equal_exact",
    "ReactorC.PQueue.C08_find_by_tag_exact"
   ],
   "note": "Search results exact on every reachable heap."
  },
  {
   "property": "C09",
   "status": "proved",
   "theorems": [
    "ReactorC.PQueue.C09_insert_if_no_match",
    "ReactorC.PQueue.C09_peek_tag_min",
    "ReactorC.PQueue.C09_pop_tag",
    "ReactorC.PQueue.C09_remove_up_to",
    "ReactorC.PQueue.C09_remove_up_to_keeps_forever"
   ],
   "note": "Tag queue operations; C09_remove_up_to_keeps_forever records the behaviour at FOREVER_TAG."
  },
  {
   "property": "C10",
   "status": "partial",
   "theorems": [
    "ReactorC.Sched.C10_schedule_strictly_future_partial",
    "ReactorC.Sched.C10_schedule_exact",
    "ReactorC.Sched.C10_physical_action_at_current_tag",
    "ReactorC.Sched.C10_physical_action_in_past",
    "ReactorC.Sched.C10_physical_action_in_past_ndebug",
    "ReactorC.Sched.C10_schedule_at_tag_future"
   ],
   "note": "Proved for logical actions and for physical actions whose requested time is past the current time; false for physical actions when the clock is not ahead (two witnesses)."
  },
  {
   "property": "C11",
   "status": "proved",
   "theorems": [
    "ReactorC.Sched.C11_min_spacing",
    "ReactorC.Sched.C11_drop",
    "ReactorC.Sched.C11_replace_pending",
    "ReactorC.Sched.C11_defer",
    "ReactorC.Sched.C11_not_early"
   ],
   "note": "All histories of calls in the documented domain (no 64-bit overflow), all three policies."
  },
  {
   "property": "C12",
   "status": "partial",
   "theorems": [
    "ReactorC.Sched.C12_no_duplicate_pending_events_partial",
    "ReactorC.Sched.C12_physical_action_duplicate",
    "ReactorC.Sched.C12_schedule_at_tag_duplicate"
   ],
   "note": "Proved for all histories of schedule calls on actions in the domain; false for physical actions at equal clock readings and for network events (witnesses)."
  },
  {
   "property": "C13",
   "status": "proved",
   "theorems": [
    "ReactorC.Runtime.C13_tags_strictly_increase",
    "ReactorC.Runtime.C13_event_processed_at_its_tag",
    "ReactorC.Runtime.C13_never_aborts",
    "ReactorC.Runtime.C13_event_processed_at_most_once",
    "ReactorC.Runtime.C13_only_queued_events_processed",
    "ReactorC.Runtime.C13_no_event_lost",
    "ReactorC.Runtime.C13_all_processed_at_end",
    "ReactorC.Runtime.C13_nothing_after_stop",
    "ReactorC.Runtime.C13_past_event_aborts"
   ],
   "note": "Every execution of the single-threaded loop: strict advance and exact tag need no hypothesis; loss-freedom and no abort for executions in the documented domain. C13_past_event_aborts shows the domain is needed."
  },
  {
   "property": "C14",
   "status": "proved",
   "theorems": [
    "ReactorC.Runtime.C14_no_untriggered_reaction",
    "ReactorC.Runtime.C14_at_most_once_per_tag",
    "ReactorC.Runtime.C14_precedence_order",
    "ReactorC.Runtime.C14_index_order",
    "ReactorC.Runtime.C14_every_triggered_reaction_runs",
    "ReactorC.Runtime.C14_runs_twice_without_contract"
   ],
   "note": "Every execution, for programs meeting the code generator contract (topological indices, sole enabler for chained reactions). C14_runs_twice_without_contract shows the second is needed."
  },
  {
   "property": "C15",
   "status": "proved",
   "theorems": [
    "ReactorC.Runtime.C15_fires_at_multiples",
    "ReactorC.Runtime.C15_no_firing_missed",
    "ReactorC.Runtime.C15_one_shot"
   ],
   "note": "Every execution in the documented domain, any number of firings."
  },
  {
   "property": "C16",
   "status": "partial",
   "theorems": [
    "ReactorC.Runtime.C16_stop_tag_never_later",
    "ReactorC.Runtime.C16_request_stop_partial",
    "ReactorC.Runtime.C16_ends_at_stop_tag",
    "ReactorC.Runtime.C16_shutdown_only_at_stop",
    "ReactorC.Runtime.C16_shutdown_reactions_run_once",
    "ReactorC.Runtime.C16_request_stop_wraps"
   ],
   "note": "Proved for every execution in the documented domain; at microstep UINT_MAX the stop tag wraps to before the current tag (C16_request_stop_wraps)."
  },
  {
   "property": "C17",
   "status": "proved",
   "theorems": [
    "ReactorC.Runtime.C17_check_deadline_is_exact",
    "ReactorC.Runtime.C17_check_deadline_agrees",
    "ReactorC.Runtime.C17_not_without_deadline",
    "ReactorC.Runtime.C17_not_with_deadline_zero",
    "ReactorC.Runtime.C17_not_in_handlers",
    "ReactorC.Runtime.C17_deadline_selection"
   ],
   "note": "Every invocation in every execution, provided logical time plus deadline fits in 64 bits (otherwise undefined in C). The function with which a reaction asks whether its deadline has passed is modelled too (Verif.Runtime.Check): it agrees with the scheduler for reactions with a positive deadline, and says that the deadline has passed for reactions without one (C17_not_without_deadline), with deadline zero and inside handlers."
  },
  {
   "property": "C18",
   "status": "proved",
   "theorems": [
    "ReactorC.Port.C18_present_iff_set_in_current_tag",
    "ReactorC.Port.C18_all_absent_at_new_tag",
    "ReactorC.Port.C18_threaded"
   ],
   "note": "Every history of sets and tag starts, single-threaded and with atomically interleaved threads."
  },
  {
   "property": "C19",
   "status": "partial",
   "theorems": [
    "ReactorC.Port.C19_iteration_deterministic",
    "ReactorC.Port.C19_dense_iteration",
    "ReactorC.Port.C19_sparse_iteration_partial",
    "ReactorC.Port.C19_all_and_only_present_channels",
    "ReactorC.Port.C19_channel_set_twice_is_visited_twice"
   ],
   "note": "Proved for dense ports and for sparse ports whose channels are each set at most once at a tag; C19_channel_set_twice_is_visited_twice proves it false otherwise."
  },
  {
   "property": "C20",
   "status": "proved",
   "theorems": [
    "ReactorC.Port.C20_no_channel_lost",
    "ReactorC.Port.C20_iteration_after_concurrent_sets"
   ],
   "note": "Every interleaving of the two atomic steps of each concurrent set."
  },
  {
   "property": "C21",
   "status": "partial",
   "theorems": [
    "ReactorC.Token.C21_no_dangling_reference_partial",
    "ReactorC.Token.C21_payload_unchanged",
    "ReactorC.Token.C21_copy_release_reads_freed_token"
   ],
   "note": "Every history in which the recycling bin does not overflow while copies are released; C21_copy_release_reads_freed_token proves a read of a freed token otherwise. Operations are atomic in the model; C73 has the interleavings of their steps."
  },
  {
   "property": "C22",
   "status": "proved",
   "theorems": [
    "ReactorC.Token.C22_writable_copy_private"
   ],
   "note": "Every reachable state, every port type; the zero-size case returns the shared message, which has no byte to write."
  },
  {
   "property": "C23",
   "status": "partial",
   "theorems": [
    "ReactorC.Sched.C23_schedule_balances_references_partial",
    "ReactorC.Sched.C23_conflict_after_stop_leaks",
    "ReactorC.Sched.C23_replace_by_same_token_leaks",
    "ReactorC.Sched.C23_schedule_at_tag_after_stop_leaks"
   ],
   "note": "Reference counts follow holders in every branch except two; both exceptions proved to leak."
  },
  {
   "property": "C24",
   "status": "partial",
   "theorems": [
    "ReactorC.Rti.C24_recursions_bounded",
    "ReactorC.Rti.C24_grants_monotone_partial",
    "ReactorC.Rti.C24_without_upstream_not_monotone"
   ],
   "note": "monotone for every federate that has an upstream federate, over all reachable states of the federation; false for federates without upstream ones (machine-checked counterexample); microsteps are assumed to stay 2^16+2 below 2^32"
  },
  {
   "property": "C25",
   "status": "proved",
   "theorems": [
    "ReactorC.Rti.C25_message_after_grant_is_later",
    "ReactorC.Rti.C25_message_after_provisional_grant_is_not_earlier",
    "ReactorC.Rti.C25_provisional_grant_excludes_outside_messages",
    "ReactorC.Rti.C25_provisional_grant_excludes_delayed_messages_within_cycles"
   ],
   "note": "over all reachable states of a federation whose federates keep to the protocol as written down in Verif/Rti/System.lean; that the federates of the code do so, and when they do not, is C60 (acts not before the start, later than its last LTC, not before its last NET unless a message arrived, delays of connections respected); microsteps stay n+2 below 2^32; a message whose tag is the end of time may follow a grant of the end of time; messages from a federate are handled only while it is connected"
  },
  {
   "property": "C26",
   "status": "proved",
   "theorems": [
    "ReactorC.Rti.C26_minimum_over_all_paths",
    "ReactorC.Rti.C26_cycle_flags",
    "ReactorC.Rti.C26_search_ends_and_counts",
    "ReactorC.Rti.C26_earliest_consequence"
   ],
   "note": "For every topology (up to 2^16 nodes) the table has exactly the nodes with a finite path, with the least accumulated delay over paths of any length; the flags are exact; the recursion ends and the count is right. Paths of 2^32 connections, where microsteps overflow, are excluded only from the reading of the delays as arrival tags."
  },
  {
   "property": "C27",
   "status": "proved",
   "theorems": [
    "ReactorC.Rti.C27_somebody_can_go_on"
   ],
   "note": "For every topology without a cycle of connections without delay and every run without socket failures and before a stop, in every state in which all connected federates have been heard (messages may be in transit): a federate with the least next event tag has no upstream or has been sent a TAG that covers it. Uses C24_recursions_bounded: the recursions of the RTI never run deeper than the number of nodes."
  },
  {
   "property": "C28",
   "status": "proved",
   "theorems": [
    "ReactorC.Stop.C28_one_stop_tag",
    "ReactorC.Stop.C28_granted_tag_is_the_latest_proposed",
    "ReactorC.Stop.C28_granted_only_when_all_have_answered",
    "ReactorC.Stop.C28_at_most_once",
    "ReactorC.Stop.C28_nobody_is_past_the_stop_tag",
    "ReactorC.Stop.C28_all_stop_at_the_granted_tag",
    "ReactorC.Stop.C28_grant_arrives_in_time",
    "ReactorC.Stop.C28_rti_expects_nothing_later",
    "ReactorC.Stop.C28_everybody_gets_a_stop_tag",
    "ReactorC.Stop.C28_the_stop_tag_is_executed",
    "ReactorC.Stop.C28_barrier_is_given_back",
    "ReactorC.Stop.C28_barrier_is_held_until_granted",
    "ReactorC.Stop.C28_leaving_without_an_answer_blocks_the_stop",
    "ReactorC.Stop.C28_counteroffer_may_have_passed",
    "ReactorC.Stop.C28_counteroffer_is_ahead",
    "ReactorC.Stop.C28_last_microstep_wraps"
   ],
   "note": "Any number of federates with one environment each, every interleaving of their threads, the RTI and FIFO channels, with the tag barrier of each federate (C44). Limits proved beside it: a federate that leaves between being asked and answering blocks the stop for good; with several environments the counteroffer may lie in the past of one of them; at the last microstep the proposal wraps. The timeout of the RTI, after which it exits with an error, is not modelled."
  },
  {
   "property": "C29",
   "status": "proved",
   "theorems": [
    "ReactorC.Start.C29_same_start_time",
    "ReactorC.Start.C29_start_time_after_all_have_proposed",
    "ReactorC.Start.C29_start_time_is_latest_plus_delay",
    "ReactorC.Start.C29_start_time_once_and_first",
    "ReactorC.Start.C29_nobody_waits_in_vain",
    "ReactorC.Start.C29_all_wait_for_everyone",
    "ReactorC.Start.C29_stop_request_may_precede_start_time",
    "ReactorC.Start.C29_clock_thread_may_read_no_start_time"
   ],
   "note": "Any number of federates, one RTI thread per federate plus the clock synchronization thread; every interleaving of their critical sections, in particular that the computation of the start time is not protected by the mutex. Limits proved beside it: one missing federate keeps all waiting; a stop request may reach a federate before its start time; the clock synchronization thread may read the start time before it is set."
  },
  {
   "property": "C30",
   "status": "partial",
   "theorems": [
    "ReactorC.Join.C30_reply_to_first_message",
    "ReactorC.Join.C30_any_input",
    "ReactorC.Join.C30_other_messages_are_rejected",
    "ReactorC.Join.C30_members_are_accepted",
    "ReactorC.Join.C30_strangers_are_rejected_partial",
    "ReactorC.Join.C30_prefix_is_accepted",
    "ReactorC.Join.C30_each_federate_joins_once",
    "ReactorC.Join.C30_no_connection_is_served_after_the_last_federate",
    "ReactorC.Join.C30_failed_join_locks_the_id",
    "ReactorC.Join.C30_connections_arrive",
    "ReactorC.Join.C30_acknowledged_federate_goes_on",
    "ReactorC.Join.C30_unreachable_rti_is_an_error",
    "ReactorC.Join.C30_rejected_federate_goes_on"
   ],
   "note": "The decision table is complete and exact, with one deviation from the claim: a federate whose federation ID is a proper prefix of that of the RTI (also the empty one) is accepted (C30_prefix_is_accepted). Further limits proved: a federate that fails after its acknowledgement locks its ID for good; a federate rejected by every RTI goes on when the time for connecting is up. Negative numbers of connections in the second message are left out."
  },
  {
   "property": "C31",
   "status": "partial",
   "theorems": [
    "ReactorC.Net.C31_int64_roundtrip",
    "ReactorC.Net.C31_signed_roundtrip",
    "ReactorC.Net.C31_uint32_roundtrip",
    "ReactorC.Net.C31_int32_roundtrip",
    "ReactorC.Net.C31_uint16_roundtrip",
    "ReactorC.Net.C31_little_endian",
    "ReactorC.Net.C31_tag_roundtrip",
    "ReactorC.Net.C31_header_roundtrip",
    "ReactorC.Net.C31_long_message_announced_wrongly",
    "ReactorC.Net.C31_start_time_partial",
    "ReactorC.Net.C31_start_time_wrong_on_big_endian_rti"
   ],
   "note": "Proved for all integers, tags and tagged-message headers with payload below 2^32 bytes, on both byte orders. The code violates the property in two places, both proved: a payload of 2^32 bytes is announced as empty, and a big-endian RTI sends the start time with reversed bytes."
  },
  {
   "property": "C32",
   "status": "proved",
   "theorems": [
    "ReactorC.Net.C32_read_success",
    "ReactorC.Net.C32_read_failure",
    "ReactorC.Net.C32_read_completes",
    "ReactorC.Net.C32_write"
   ],
   "note": "All scripts of partial transfers, transient errors, end of stream and errors."
  },
  {
   "property": "C33",
   "status": "proved",
   "theorems": [
    "ReactorC.Net.C33_forwarding",
    "ReactorC.Net.C33_dropped_message_is_skipped",
    "ReactorC.Net.C33_end_to_end"
   ],
   "note": "Every buffer size from 22 bytes on, every header and payload; also the emptying of the connection when the destination has gone, and end to end from lf_send_tagged_message. The reads and writes are assumed to succeed (C32). The destination identifier in the header is not checked by the code (out-of-range identifiers are outside the model)."
  },
  {
   "property": "C34",
   "status": "proved",
   "theorems": [
    "ReactorC.Vector.C34_memory_in_use_is_kept",
    "ReactorC.Vector.C34_memory_is_kept_at_first",
    "ReactorC.Vector.C34_memory_is_bounded",
    "ReactorC.Vector.C34_memory_is_given_back",
    "ReactorC.Vector.C34_vector_is_growable_list",
    "ReactorC.Vector.C34_pop_returns_last_pushed",
    "ReactorC.Vector.C34_unset_element_is_not_null",
    "ReactorC.Vector.C34_capacity_zero_faults"
   ],
   "note": "all histories of push, pushall, pop, at and vote on a vector created with positive capacity; two behaviours outside the documented contract are shown. The memory that is held is bounded by the largest use, and votes give memory back (C34_memory_is_bounded, C34_memory_is_given_back)"
  },
  {
   "property": "C35",
   "status": "proved",
   "theorems": [
    "ReactorC.HashSet.C35_hashset_is_set",
    "ReactorC.HashSet.C35_iteration_yields_members",
    "ReactorC.HashSet.C35_spec_membership",
    "ReactorC.HashSet.C35_reserved_item_matches_deleted"
   ],
   "note": "all histories with legal items; excludes allocation failure, 2^30 or more slots and float rounding of counts above 2^24"
  },
  {
   "property": "C36",
   "status": "proved",
   "theorems": [
    "ReactorC.HashMap.C36_hashmap_is_map",
    "ReactorC.HashMap.C36_reads_are_values",
    "ReactorC.HashMap.C36_overfull_put_faults"
   ],
   "note": "any hash function; overfull maps shown to fault"
  },
  {
   "property": "C37",
   "status": "proved",
   "theorems": [
    "ReactorC.Deque.C37_deque_is_list",
    "ReactorC.Deque.C37_no_node_leaks",
    "ReactorC.Deque.C37_initialized_deque_is_list"
   ],
   "note": ""
  },
  {
   "property": "C38",
   "status": "proved",
   "theorems": [
    "ReactorC.MixedRadix.C38_incr_adds_one",
    "ReactorC.MixedRadix.C38_enumerates_all",
    "ReactorC.MixedRadix.C38_parent_value",
    "ReactorC.MixedRadix.C38_parent_is_quotient"
   ],
   "note": "all radix vectors and permutations"
  },
  {
   "property": "C39",
   "status": "proved",
   "theorems": [
    "ReactorC.Clock.C39_physical_time_monotone",
    "ReactorC.Clock.C39_not_before_clock"
   ],
   "note": "Any number of threads and interleavings of lf_clock_gettime, arbitrary clock readings; overflow of last_read + 1 at 2^63 is not modelled."
  },
  {
   "property": "C40",
   "status": "proved",
   "theorems": [
    "ReactorC.ClockSync.C40_exact_if_symmetric",
    "ReactorC.ClockSync.C40_error_at_most_half_round_trip",
    "ReactorC.ClockSync.C40_window_correction",
    "ReactorC.ClockSync.C40_average_up_to_truncation",
    "ReactorC.ClockSync.C40_initial_synchronisation",
    "ReactorC.ClockSync.C40_runtime_correction_bounded",
    "ReactorC.ClockSync.C40_samples_not_overrun",
    "ReactorC.ClockSync.C40_disturbed_exchange_discarded",
    "ReactorC.ClockSync.C40_lost_probe_biases"
   ],
   "note": "All times, all numbers of exchanges, attenuations and guard bands; the standard deviation test is an arbitrary Boolean. A lost coded probe is counted although it contributes nothing: C40_lost_probe_biases."
  },
  {
   "property": "C41",
   "status": "proved",
   "theorems": [
    "ReactorC.Np.C41_triggered_reactions_execute_exactly_once",
    "ReactorC.Np.C41_never_twice_at_a_tag",
    "ReactorC.Np.C41_lower_levels_finish_first",
    "ReactorC.Np.C41_executing_reactions_have_one_level",
    "ReactorC.Np.C41_nothing_after_stop",
    "ReactorC.Np.C41_no_access_outside_of_arrays",
    "ReactorC.Np.C41_level_without_reactions_reads_outside"
   ],
   "note": "Small-step model of scheduler_NP.c (unfederated): every access to a shared variable is one step, any number of workers, levels and reactions, any interleaving; the compiler's guarantee that reactions trigger only reactions of higher levels is a rule of the environment. Memory safety needs that every level has a reaction (otherwise executing_reactions[0] is read outside of the array: C41_level_without_reactions_reads_outside)."
  },
  {
   "property": "C42",
   "status": "proved",
   "theorems": [
    "ReactorC.Np.C42_some_thread_can_step",
    "ReactorC.Np.C42_only_the_semaphore_blocks",
    "ReactorC.Np.C42_no_busy_waiting",
    "ReactorC.Np.C42_reactions_get_executed",
    "ReactorC.Np.C42_queued_means_executing",
    "ReactorC.Np.C42_idle_workers_are_used"
   ],
   "note": "Same model. Deadlock freedom in every reachable state, a bound on the steps the scheduler makes on its own (no busy waiting), and what a settled state looks like: a reaction is executing, the next tag is awaited with nothing queued, or all workers have left."
  },
  {
   "property": "C43",
   "status": "proved",
   "theorems": [
    "ReactorC.Gedf.C43_triggered_reactions_execute_exactly_once",
    "ReactorC.Gedf.C43_never_twice_at_a_tag",
    "ReactorC.Gedf.C43_dependencies_finish_first",
    "ReactorC.Gedf.C43_executing_reactions_have_one_level",
    "ReactorC.Gedf.C43_least_index_is_taken",
    "ReactorC.Gedf.C43_tag_advances_when_nothing_is_left",
    "ReactorC.Gedf.C43_nothing_after_stop",
    "ReactorC.Gedf.C43_no_race_on_the_queue",
    "ReactorC.Gedf.C43_some_thread_can_step",
    "ReactorC.Gedf.C43_no_busy_waiting",
    "ReactorC.Gedf.C43_reactions_get_executed",
    "ReactorC.Gedf.C43_idle_workers_are_used",
    "ReactorC.Gedf.C43_deadlines_come_before_levels"
   ],
   "note": "Small-step model of scheduler_GEDF_NP.c (unfederated, without modes): what a thread does between two operations on the mutex or the condition variable is one step; any number of workers and reactions, any interleaving, spurious wake-ups included. The contract of the compiler (Config.Ok): a dependent reaction has a higher level and no earlier deadline. Independent reactions of different levels may be executed out of the order of their levels (C43_deadlines_come_before_levels)."
  },
  {
   "property": "C44",
   "status": "proved",
   "theorems": [
    "ReactorC.Barrier.C44_tag_stays_before_outstanding",
    "ReactorC.Barrier.C44_message_begun_in_time_is_in_time",
    "ReactorC.Barrier.C44_message_begun_in_time_gets_its_tag",
    "ReactorC.Barrier.C44_last_release_leaves_no_barrier",
    "ReactorC.Barrier.C44_no_barrier_no_wait",
    "ReactorC.Barrier.C44_no_needless_wait",
    "ReactorC.Barrier.C44_nothing_is_skipped",
    "ReactorC.Barrier.C44_events_are_kept",
    "ReactorC.Barrier.C44_events_in_the_past_are_noticed",
    "ReactorC.Barrier.C44_fast_ignores_barriers",
    "ReactorC.Barrier.C44_unlocked_release_loses_a_barrier"
   ],
   "note": "Model of the barrier in reactor_threaded.c (raise, give back, wait, the end of _lf_next_locked) and its users in federate.c. With -fast the property is false: a proposal of FOREVER ignores barriers (C44_fast_ignores_barriers). When the contents of a message cannot be read the code gives the barrier back without the mutex, and a barrier can be lost (C44_unlocked_release_loses_a_barrier); the other theorems are about the steps that hold the mutex."
  },
  {
   "property": "C45",
   "status": "partial",
   "theorems": [
    "ReactorC.Level.C45_known_before_executing",
    "ReactorC.Level.C45_known_for_a_reason_partial",
    "ReactorC.Level.C45_status_never_goes_back",
    "ReactorC.Level.C45_last_microstep_goes_back",
    "ReactorC.Level.C45_direct_messages_are_ahead",
    "ReactorC.Level.C45_sleeps_only_for_unknown_ports",
    "ReactorC.Level.C45_grant_wakes",
    "ReactorC.Level.C45_absent_only_after_staa",
    "ReactorC.Level.C45_absent_soon_after_staa",
    "ReactorC.Level.C45_late_notice_unblocks",
    "ReactorC.Level.C45_notice_and_timeout_claim_next_microstep",
    "ReactorC.Level.C45_start_message_claims_next_microstep",
    "ReactorC.Level.C45_level_test_is_void"
   ],
   "note": "Any network ports, levels, delays, grants, notices, timeouts and orders of events. Full knowledge needs what comes in to be in order: with decentralized coordination a late notice unblocks the current tag (C45_late_notice_unblocks), a notice followed by the STAA timeout claims the next microstep, and statuses go back when the microstep overflows."
  },
  {
   "property": "C46",
   "status": "proved",
   "theorems": [
    "ReactorC.Modes.C46_queue_has_active_events_only",
    "ReactorC.Modes.C46_flag_is_activity",
    "ReactorC.Modes.C46_fallback_agrees",
    "ReactorC.Modes.C46_one_active_mode",
    "ReactorC.Modes.C46_transitions"
   ],
   "note": "Any number of modal reactors nested in any way (an enclosing reactor comes first in the array, as the code generator orders them), all executions of modes.c in which reactions ask for modes and tags advance; includes that the event queue never holds an event of an inactive mode. Executions that reach the end of time or run out of microsteps are left out."
  },
  {
   "property": "C47",
   "status": "partial",
   "theorems": [
    "ReactorC.Modes.C47_leaving_suspends",
    "ReactorC.Modes.C47_suspended_until_entered",
    "ReactorC.Modes.C47_history_keeps_remaining_delay_partial",
    "ReactorC.Modes.C47_reset_discards_events_partial",
    "ReactorC.Modes.C47_one_pending_event_per_timer",
    "ReactorC.Modes.C47_reset_restarts_timers_partial",
    "ReactorC.Modes.C47_reset_starts_one_shot_timers_partial",
    "ReactorC.Modes.C47_variables_are_reset",
    "ReactorC.Modes.C47_nested_history_forgets_events",
    "ReactorC.Modes.C47_nested_event_lost",
    "ReactorC.Modes.C47_self_reset_keeps_events",
    "ReactorC.Modes.C47_one_shot_timer_fires_twice",
    "ReactorC.Modes.C47_resumed_events_collide",
    "ReactorC.Modes.C47_timer_beyond_stop_is_not_restarted"
   ],
   "note": "Proved for modes of modal reactors that are not themselves inside of a mode, for triggers with the default spacing policy and below the stop tag. False in general: six machine-checked counterexamples (nested reactors entered by history, reset of a mode from itself, one-shot timers, colliding resumed events, timers near the stop tag)."
  },
  {
   "property": "C48",
   "status": "proved",
   "theorems": [
    "ReactorC.Semaphore.C48_acquires_bounded",
    "ReactorC.Semaphore.C48_count_exact",
    "ReactorC.Semaphore.C48_never_negative",
    "ReactorC.Semaphore.C48_no_lost_wakeup",
    "ReactorC.Semaphore.C48_acquire_proceeds",
    "ReactorC.Semaphore.C48_wait_proceeds",
    "ReactorC.Semaphore.C48_mutex_released"
   ],
   "note": "Any number of threads, statement-level interleaving, spurious wakeups; safety (accounting), no lost wakeup and possibility of progress. Overflow of size_t is not modelled."
  },
  {
   "property": "C49",
   "status": "proved",
   "theorems": [
    "ReactorC.Trace.C49_nothing_lost",
    "ReactorC.Trace.C49_complete_after_stop",
    "ReactorC.Trace.C49_no_overrun",
    "ReactorC.Trace.C49_chunks",
    "ReactorC.Trace.C49_overrun_without_file",
    "ReactorC.Trace.C49_overrun_without_file_reachable",
    "ReactorC.Trace.C49_thread_identifier_test_off_by_one",
    "ReactorC.Trace.C49_object_table"
   ],
   "note": "Any number of threads and buffers, any capacity, any interleaving; tracing is stopped when no thread is in a tracepoint, and thread identifiers are below the number of buffers. Proved as defects: without an open file a full buffer is overrun, and the identifier test is off by one."
  },
  {
   "property": "C50",
   "status": "partial",
   "theorems": [
    "ReactorC.Watchdog.C50_decisions_hold_partial",
    "ReactorC.Watchdog.C50_not_excluding_late_handlers",
    "ReactorC.Watchdog.C50_not_started_by_late_handlers",
    "ReactorC.Watchdog.C50_not_stopped_by_late_handlers",
    "ReactorC.Watchdog.C50_handler_only_when_due_partial",
    "ReactorC.Watchdog.C50_handler_excludes_reactions_partial",
    "ReactorC.Watchdog.C50_start_not_missed",
    "ReactorC.Watchdog.C50_start_in_handler_is_lost",
    "ReactorC.Watchdog.C50_shorter_restart_is_late",
    "ReactorC.Watchdog.C50_wakes_in_time_if_extending"
   ],
   "note": "One watchdog, its thread, the reactions and handler calling start/stop, the terminating thread, spurious wake-ups; any interleaving. Also proved: a start made inside the handler has no effect, and a restart with an earlier expiration is served late (C50_shorter_restart_is_late). Proved for programs whose deadline handlers and STP handlers do not start or stop watchdogs. Missing and false: those handlers run without the mutex of the reactor, so a watchdog that such a handler stops may still expire, one that it starts may be missed, and such a handler may run at the same time as the handler of the watchdog (C50_not_stopped_by_late_handlers, C50_not_started_by_late_handlers, C50_not_excluding_late_handlers)."
  },
  {
   "property": "C51",
   "status": "partial",
   "theorems": [
    "ReactorC.Fed.C51_reported_time_is_honest",
    "ReactorC.Fed.C51_reported_tag_is_honest_partial",
    "ReactorC.Fed.C51_reported_microstep_can_be_too_late"
   ],
   "note": "Every NET that lf_send_next_event_tag sends while waiting is the tag of the next event, and its time is honest. The tag is honest unless its microstep is positive and its time is exactly the earliest possible time of a physical action: for that case the code is wrong, proved in C51_reported_microstep_can_be_too_late. The NET for FOREVER sent on exit, without waiting, is not bounded and is outside the theorem."
  },
  {
   "property": "C52",
   "status": "proved",
   "theorems": [
    "ReactorC.Index.C52_order",
    "ReactorC.Index.C52_smaller_deadline_first",
    "ReactorC.Index.C52_level_recovered",
    "ReactorC.Index.C52_fits",
    "ReactorC.Index.C52_level_limit"
   ],
   "note": "Non-negative deadlines; deadlines from 2^48-1 ns on are equal; C52_level_limit shows the level bound is needed."
  },
  {
   "property": "C53",
   "status": "proved",
   "theorems": [
    "ReactorC.Recycle.C53_not_aliased",
    "ReactorC.Recycle.C53_cleared",
    "ReactorC.Recycle.C53_others_unchanged",
    "ReactorC.Recycle.C53_every_event_in_one_place"
   ],
   "note": "All histories of get/write/insert/remove/recycle in which an event is handed on only by its holder, as all callers in the code do."
  },
  {
   "property": "C54",
   "status": "proved",
   "theorems": [
    "ReactorC.Print.C54_comma_separated",
    "ReactorC.Print.C54_comma_separated_negative_undefined",
    "ReactorC.Print.C54_readable"
   ],
   "note": "All 64-bit non-negative times; C54_comma_separated_negative_undefined shows the function is undefined for negative ones."
  },
  {
   "property": "C55",
   "status": "partial",
   "theorems": [
    "ReactorC.Encl.C55_returned_tags_are_granted",
    "ReactorC.Encl.C55_message_after_return_is_later_partial",
    "ReactorC.Encl.C55_without_upstream_returns_at_once",
    "ReactorC.Encl.C55_somebody_returns",
    "ReactorC.Encl.C55_single_enclave",
    "ReactorC.Encl.C55_race_breaks_the_promise",
    "ReactorC.Encl.C55_shutdown_of_a_starving_enclave_breaks_the_promise",
    "ReactorC.Encl.C55_idle_cycle_waits_forever"
   ],
   "note": "Model of rti_local.c in the steps into which its mutexes divide it, for any number of enclaves and any schedule. Proved: returned tags are covered by grants; no message at or before a returned tag (if no earlier message arrives while an enclave is about to report its next event tag); enclaves do not block each other without zero-delay cycles. Not provable: the code violates the message property when this race occurs (C55_race_breaks_the_promise) and when an enclave shuts down by starvation (C55_shutdown_of_a_starving_enclave_breaks_the_promise); idle cycles wait forever (C55_idle_cycle_waits_forever)."
  },
  {
   "property": "C56",
   "status": "proved",
   "theorems": [
    "ReactorC.Args.C56_reads_within_argv",
    "ReactorC.Args.C56_accepts_exactly",
    "ReactorC.Args.C56_rejects_the_rest",
    "ReactorC.Args.C56_decimal_numerals",
    "ReactorC.Args.C56_usage_lists_options_that_are_rejected"
   ],
   "note": "All argument vectors; numbers do not overflow; the parsing of RTI addresses is an arbitrary predicate. C56_usage_lists_options_that_are_rejected: usage prints options that are rejected."
  },
  {
   "property": "C57",
   "status": "partial",
   "theorems": [
    "ReactorC.Token.C57_no_leak_partial",
    "ReactorC.Token.C57_all_released",
    "ReactorC.Token.C57_second_scheduled_value_leaks",
    "ReactorC.Token.C57_set_on_shared_message_leaks"
   ],
   "note": "Every history in which no message is overwritten while shared; two theorems prove leaks otherwise."
  },
  {
   "property": "C58",
   "status": "proved",
   "theorems": [
    "ReactorC.Fed.C58_advances_within_grant"
   ],
   "note": "For all observations made after each wait, with the next event tag not becoming later while the main thread waits (nobody else pops events) and physical time not going back."
  },
  {
   "property": "C59",
   "status": "partial",
   "theorems": [
    "ReactorC.Modes.C59_nested_history_skips_startup",
    "ReactorC.Modes.C59_startup_at_most_once",
    "ReactorC.Modes.C59_startup_only_if_active",
    "ReactorC.Modes.C59_startup_when_active_partial",
    "ReactorC.Modes.C59_shutdown_iff_started",
    "ReactorC.Modes.C59_reset_iff_entered_by_reset"
   ],
   "note": "At-most-once, only-if-active, shutdown and reset parts hold for every nesting; that an active mode has had its startup reactions holds for modal reactors that are not inside of a mode, and is false for nested ones first entered by history (C59_nested_history_skips_startup)."
  },
  {
   "property": "C60",
   "status": "partial",
   "theorems": [
    "ReactorC.Fedn.C60_federates_keep_the_protocol_partial",
    "ReactorC.Fedn.C60_promises_are_kept_partial",
    "ReactorC.Fedn.C60_messages_in_time_partial",
    "ReactorC.Fedn.C60_messages_in_time_without_cycles_partial",
    "ReactorC.Fedn.C60_never_tardy_partial",
    "ReactorC.Fedn.C60_no_rejected_grant_partial",
    "ReactorC.Fedn.C60_reached_was_granted_partial",
    "ReactorC.Fedn.C60_reached_within_stop_partial",
    "ReactorC.Fedn.C60_no_message_after_timeout_partial",
    "ReactorC.Fedn.C60_message_at_provisional_tag",
    "ReactorC.Fedn.C60_fails_by_early_wakeup",
    "ReactorC.Fedn.C60_fails_by_requested_stop",
    "ReactorC.Fedn.C60_fails_by_tie",
    "ReactorC.Fedn.C60_late_message_has_bad_index"
   ],
   "note": "Any federation, program, physical clocks, interleavings, broken connections. The statement fails in three ways of the code, each shown by a run: an early wake-up before the startup reactions (C60_fails_by_early_wakeup), shutdown reactions that send at a requested stop tag (C60_fails_by_requested_stop), and a microstep tie with a physical action (C60_fails_by_tie). The positive theorems exclude exactly these circumstances (Config.Calm). Microsteps stay n+2 below 2^32, and the end of time is not reached. Whether a port is waiting when a message for the current, provisionally granted tag comes in is the subject of C45."
  },
  {
   "property": "C61",
   "status": "partial",
   "theorems": [
    "ReactorC.Adaptive.C61_experiments_are_rare",
    "ReactorC.Adaptive.C61_fastest_number_between_experiments",
    "ReactorC.Adaptive.C61_what_becomes_the_fastest",
    "ReactorC.Adaptive.C61_fastest_is_brought_up_to_date",
    "ReactorC.Adaptive.C61_measurements_stay_in_bounds",
    "ReactorC.Adaptive.C61_end_of_tag_suggests_numbers_in_range",
    "ReactorC.Adaptive.C61_few_tags_are_measured",
    "ReactorC.Adaptive.C61_triggered_reactions_execute_exactly_once_partial",
    "ReactorC.Adaptive.C61_never_twice_at_a_tag",
    "ReactorC.Adaptive.C61_lower_levels_finish_first_partial",
    "ReactorC.Adaptive.C61_executing_reactions_have_one_level",
    "ReactorC.Adaptive.C61_nothing_after_stop",
    "ReactorC.Adaptive.C61_no_access_outside_of_arrays",
    "ReactorC.Adaptive.C61_workers_per_level_in_range",
    "ReactorC.Adaptive.C61_tag_advances_with_the_mutex",
    "ReactorC.Adaptive.C61_only_one_advances",
    "ReactorC.Adaptive.C61_single_worker_never_aborts",
    "ReactorC.Adaptive.C61_some_thread_can_step",
    "ReactorC.Adaptive.C61_progress_stays_possible_partial",
    "ReactorC.Adaptive.C61_wakeup_without_cause_ends_the_tag_early",
    "ReactorC.Adaptive.C61_two_workers_can_abort",
    "ReactorC.Adaptive.C61_level_without_reactions_aborts",
    "ReactorC.Adaptive.C61_fast_advances_without_the_mutex",
    "ReactorC.Adaptive.C61_two_workers_can_keep_each_other_busy"
   ],
   "note": "Any unfederated program, number of workers, measurements and order of steps; every access to a shared variable is a step. Execution exactly once, the order of levels, the tag, array bounds and that progress stays possible are proved with one condition: at most two workers, or no wake-up without a cause of a worker at a critical moment; without it the tag advances too early (C61_wakeup_without_cause_ends_the_tag_early). Parts that fail are shown by runs: an assertion fails with two workers (C61_two_workers_can_abort) and for a level without reactions (C61_level_without_reactions_aborts), two workers can keep each other busy for ever (C61_two_workers_can_keep_each_other_busy), and with -fast the tag advances without the mutex (C61_fast_advances_without_the_mutex). The measurements are a model of their own (Verif.Adaptive.Data). How often a number of workers other than the fastest is tried is proved as well (C61_experiments_are_rare, C61_fastest_number_between_experiments, C61_what_becomes_the_fastest)."
  },
  {
   "property": "C62",
   "status": "proved",
   "theorems": [
    "ReactorC.Det.C62_results_do_not_depend_on_the_schedule",
    "ReactorC.Det.C62_nonpreemptive_scheduler_is_deterministic",
    "ReactorC.Det.C62_deadline_scheduler_is_deterministic",
    "ReactorC.Det.C62_adaptive_scheduler_is_deterministic",
    "ReactorC.Det.C62_runtime_without_threads_is_deterministic",
    "ReactorC.Det.C62_two_executions_agree",
    "ReactorC.Det.C62_threads_do_not_change_the_results",
    "ReactorC.Det.C62_no_data_races",
    "ReactorC.Det.C62_without_order_the_schedule_matters"
   ],
   "note": "The bodies of reactions are arbitrary sequences of reads, writes and triggers whose accesses alternate arbitrarily; the schedulers are the models of C41, C43, C61 (with the condition of C61 on wake-ups of the adaptive scheduler) and, without threads, the queue with the reactions that are executed without it. The contract of the compiler on dependencies is a hypothesis; C62_without_order_the_schedule_matters shows that it is needed. With threads a chain of reactions that one worker executes without the queue counts as one reaction. Inputs that depend on physical time are part of what is given."
  },
  {
   "property": "C63",
   "status": "proved",
   "theorems": [
    "ReactorC.Trace.File.C63_file_cut_off",
    "ReactorC.Trace.File.C63_trace_file_reads_back",
    "ReactorC.Trace.File.C63_tools_read_what_programs_trace",
    "ReactorC.Trace.File.C63_every_tracepoint_is_read",
    "ReactorC.Trace.File.C63_lookup",
    "ReactorC.Trace.File.C63_trigger_lookup",
    "ReactorC.Trace.File.C63_no_record_no_header",
    "ReactorC.Trace.File.C63_objects_registered_late_are_missing",
    "ReactorC.Trace.File.C63_lookup_without_success_gives_the_first_index",
    "ReactorC.Trace.File.C63_other_layouts_are_garbled",
    "ReactorC.Trace.File.C63_big_endian_reads_nothing",
    "ReactorC.Trace.File.C63_long_descriptions_garble",
    "ReactorC.Trace.File.C63_negative_length_overruns"
   ],
   "note": "Byte-level model of the file and of the layout of structs in memory, combined with the model of tracing of C49. The restrictions in the statement are needed: C63_other_layouts_are_garbled, C63_big_endian_reads_nothing, C63_objects_registered_late_are_missing, C63_long_descriptions_garble, C63_no_record_no_header. A file that no program writes can make the tools write outside of their buffer (C63_negative_length_overruns), and a lookup without success gives index 0 although -1 is documented (C63_lookup_without_success_gives_the_first_index)."
  },
  {
   "property": "C64",
   "status": "partial",
   "theorems": [
    "ReactorC.Platform.C64_nrf52_reads_the_time_partial",
    "ReactorC.Platform.C64_nrf52_goes_back_in_critical_sections",
    "ReactorC.Platform.C64_arduino_reads_the_time_partial",
    "ReactorC.Platform.C64_arduino_goes_back_every_71_minutes",
    "ReactorC.Platform.C64_zephyr_counter_never_goes_back",
    "ReactorC.Platform.C64_zephyr_counter_reads_the_time_partial",
    "ReactorC.Platform.C64_zephyr_counter_jumps_ahead",
    "ReactorC.Platform.C64_zephyr_counter_then_stands_still",
    "ReactorC.Platform.C64_zephyr_kernel_clock",
    "ReactorC.Platform.C64_zephyr_kernel_clock_runs_slow"
   ],
   "note": "Zephyr with a counter: never back, in all circumstances (C64_zephyr_counter_never_goes_back); Zephyr with the timer of the kernel: never back or ahead. The other theorems need their restrictions: the Arduino clock starts again from 0 every 71 minutes (C64_arduino_goes_back_every_71_minutes), that of the nRF52 goes back when its counter wraps around in a critical section (C64_nrf52_goes_back_in_critical_sections), that of Zephyr with a counter jumps ahead by an epoch and then stands still when the counter wraps around during a reading (C64_zephyr_counter_jumps_ahead, C64_zephyr_counter_then_stands_still), and that of the kernel of Zephyr runs slow (C64_zephyr_kernel_clock_runs_slow)."
  },
  {
   "property": "C65",
   "status": "partial",
   "theorems": [
    "ReactorC.Platform.Irq.C65_rp2040_critical_sections",
    "ReactorC.Platform.Irq.C65_zephyr_critical_sections_partial",
    "ReactorC.Platform.Irq.C65_nrf52_critical_sections_partial",
    "ReactorC.Platform.Irq.C65_zephyr_nested_interrupts_lose_updates",
    "ReactorC.Platform.Irq.C65_zephyr_threads_lose_updates",
    "ReactorC.Platform.Irq.C65_nrf52_nested_sections_lose_updates",
    "ReactorC.Platform.Irq.C65_arduino_is_the_wrong_way_round",
    "ReactorC.Platform.Irq.C65_rp2040_cores_lose_updates"
   ],
   "note": "Proved without restriction for one core of the RP2040; for Zephyr and Patmos if interrupts do not nest and there are no threads, for the nRF52 if critical sections are not nested. Each restriction is needed, and the Arduino platform has the two functions exchanged: C65_zephyr_nested_interrupts_lose_updates, C65_zephyr_threads_lose_updates, C65_nrf52_nested_sections_lose_updates, C65_arduino_is_the_wrong_way_round, C65_rp2040_cores_lose_updates."
  },
  {
   "property": "C66",
   "status": "proved",
   "theorems": [
    "ReactorC.Platform.C66_priorities_are_mapped_in_order",
    "ReactorC.Platform.C66_other_priorities_are_rejected",
    "ReactorC.Platform.C66_times_are_converted",
    "ReactorC.Platform.C66_times_are_converted_back",
    "ReactorC.Platform.C66_negative_times_are_invalid"
   ],
   "note": "With the restriction to times that are not negative (C66_negative_times_are_invalid)."
  },
  {
   "property": "C67",
   "status": "proved",
   "theorems": [
    "ReactorC.Platform.Pico.C67_no_wakeup_is_lost",
    "ReactorC.Platform.Pico.C67_the_mutex_is_released",
    "ReactorC.Platform.Pico.C67_the_mutex_is_locked_again",
    "ReactorC.Platform.Pico.C67_timed_wait_keeps_the_mutex",
    "ReactorC.Platform.Pico.C67_no_wakeup_without_notification"
   ],
   "note": "For lf_cond_wait with a mutex that has been locked once. In a wait with a time limit the mutex is never released (C67_timed_wait_keeps_the_mutex)."
  },
  {
   "property": "C68",
   "status": "proved",
   "theorems": [
    "ReactorC.Decentral.C68_processed_at_its_tag",
    "ReactorC.Decentral.C68_none_lost",
    "ReactorC.Decentral.C68_in_order",
    "ReactorC.Decentral.C68_waits_for_the_payload",
    "ReactorC.Decentral.C68_waits_at_most_sta",
    "ReactorC.Decentral.C68_no_wait_if_known",
    "ReactorC.Decentral.C68_start_message_makes_the_next_one_late",
    "ReactorC.Decentral.C68_last_ten_microseconds",
    "ReactorC.Decentral.C68_slow_payload_is_late"
   ],
   "note": "With the assumptions made precise in the statement: headers 10 microseconds before the end of the wait, in order, and no message for the start tag completed between the end of the wait for the start time and the start. Each is needed: C68_last_ten_microseconds, C68_slow_payload_is_late, C68_start_message_makes_the_next_one_late."
  },
  {
   "property": "C69",
   "status": "partial",
   "theorems": [
    "ReactorC.Decentral.C69_never_early_and_tardy_if_late",
    "ReactorC.Decentral.C69_no_advance_while_reading",
    "ReactorC.Decentral.C69_none_lost_before_stop_partial",
    "ReactorC.Decentral.C69_in_order_partial",
    "ReactorC.Decentral.C69_delay_is_least_partial",
    "ReactorC.Decentral.C69_message_overwritten"
   ],
   "note": "Never early, tardy iff late, and no advance while a message is read: proved without assumptions. None lost and in order: proved if no message moves on to a tag that another message has moved on to; otherwise a message is overwritten (C69_message_overwritten)."
  },
  {
   "property": "C70",
   "status": "partial",
   "theorems": [
    "ReactorC.Tardiness.C70_invoked_as_due_partial",
    "ReactorC.Tardiness.C70_all_invoked_partial",
    "ReactorC.Tardiness.C70_no_tardy_message_no_handler",
    "ReactorC.Tardiness.C70_second_message_hides_tardiness",
    "ReactorC.Tardiness.C70_order_decides",
    "ReactorC.Tardiness.C70_chain_passes_on_what_is_handled",
    "ReactorC.Tardiness.C70_missed_deadline_leaves_the_mark"
   ],
   "note": "Proved for programs in which each reaction is enabled by one event or reaction, marked reactions do not miss deadlines, and reactions with handlers are not executed in chains. Each restriction is needed: C70_second_message_hides_tardiness with C70_order_decides, C70_missed_deadline_leaves_the_mark, C70_chain_passes_on_what_is_handled. For all programs: no tardy message, no handler."
  },
  {
   "property": "C71",
   "status": "partial",
   "theorems": [
    "ReactorC.FedDet.C71_results_do_not_depend_on_timing_partial",
    "ReactorC.FedDet.C71_same_up_to_a_tag_partial",
    "ReactorC.FedDet.C71_same_results_at_the_end_partial",
    "ReactorC.FedDet.C71_federation_computes_the_program_partial",
    "ReactorC.FedDet.C71_federation_computes_all_partial",
    "ReactorC.FedDet.C71_sequential_execution_is_deterministic",
    "ReactorC.FedDet.C71_no_input_is_late_partial"
   ],
   "note": "Proved for every program without cycles of connections without delay, any two timings, with federates that resign when they have ended, and against a sequential execution. Left out: zero-delay cycles (provisional grants), executions in which a trigger gets two events at one tag (the code then shifts one by a microstep), physical actions, requested stops, federates that leave before their end and connections that break, different timeouts, and the early wake-up of C60_fails_by_early_wakeup, which does make results depend on timing."
  },
  {
   "property": "C72",
   "status": "partial",
   "theorems": [
    "ReactorC.FedDet.C72_not_stuck_partial",
    "ReactorC.FedDet.C72_does_not_work_for_ever_partial",
    "ReactorC.FedDet.C72_every_fair_execution_ends_partial",
    "ReactorC.FedDet.C72_the_end_can_be_reached_partial",
    "ReactorC.FedDet.C72_nothing_is_left_at_the_end_partial",
    "ReactorC.FedDet.C72_no_two_events_for_one_trigger_partial",
    "ReactorC.Fedn.C72_granted_the_end_of_time_holds_back_downstream",
    "ReactorC.Fedn.C72_starves_when_upstream_has_resigned"
   ],
   "note": "Proved for every program that has a complete sequential execution, with federates that resign when they have ended: from every reachable state other than the end something can go on, no execution works for ever, and every fair one ends with the results of the program. Left out: zero-delay cycles (provisional grants), physical actions, requested stops, federates that leave before their end, and executions with infinitely many spurious wake-ups of the wait for a grant. With federates that leave before their end the property fails: a federate all of whose upstream federates have resigned is granted the end of time, does not report to the RTI any more, and the federates downstream of it starve (C72_starves_when_upstream_has_resigned)."
  },
  {
   "property": "C73",
   "status": "partial",
   "theorems": [
    "ReactorC.Token.Threads.C73_safe_if_threads_are_apart_partial",
    "ReactorC.Token.Threads.C73_safe_without_forwarding_partial",
    "ReactorC.Token.Threads.C73_safe_with_one_thread_partial",
    "ReactorC.Token.Threads.C73_parallel_forwarding_loses_a_message",
    "ReactorC.Token.Threads.C73_parallel_release_frees_twice"
   ],
   "note": "Proved for any number of threads when no two of them work on the same token at the same time, hence for programs with one worker and for programs that do not forward tokens. Otherwise the property fails: counts are incremented and decremented without a mutex (C73_parallel_forwarding_loses_a_message, C73_parallel_release_frees_twice). Left out of this model: copies, actions and the events of delayed connections."
  },
  {
   "property": "C74",
   "status": "partial",
   "theorems": [
    "ReactorC.Auth.C74_accepted_if_answered_by_a_member_partial",
    "ReactorC.Auth.C74_each_answer_is_accepted_once",
    "ReactorC.Auth.C74_each_id_joins_once",
    "ReactorC.Auth.C74_federate_goes_on_if_answered_by_the_rti",
    "ReactorC.Auth.C74_each_random_number_is_answered_once",
    "ReactorC.Auth.C74_members_are_accepted",
    "ReactorC.Auth.C74_anybody_can_end_the_rti",
    "ReactorC.Auth.C74_eavesdropper_is_accepted",
    "ReactorC.Auth.C74_accepted_under_another_id",
    "ReactorC.Auth.C74_stranger_joins_with_empty_federation_id"
   ],
   "note": "Symbolic model: ideal HMAC, new random numbers, a network that is controlled by a stranger. While the federation ID is secret, each accepted connection has been answered by a member and each federate that goes on by the RTI of its federation, once and in this order. The rest of the property fails, each shown by a run: the federation ID, which is the key, is sent in the clear after the authentication; the codes bind neither the random number of the RTI to the federate nor the ID of the federate to its answer; the empty federation ID is then accepted from a stranger; a wrong first byte or a closed connection ends the RTI."
  },
  {
   "property": "C75",
   "status": "partial",
   "theorems": [
    "ReactorC.Join.P2p.C75_members_are_accepted",
    "ReactorC.Join.P2p.C75_strangers_are_rejected_partial",
    "ReactorC.Join.P2p.C75_others_are_rejected",
    "ReactorC.Join.P2p.C75_longer_federation_id_is_accepted",
    "ReactorC.Join.P2p.C75_shorter_federation_id_is_read_beyond_its_end",
    "ReactorC.Join.P2p.C75_id_out_of_range_is_written_beyond_the_end",
    "ReactorC.Join.P2p.C75_all_members_are_connected_partial",
    "ReactorC.Join.P2p.C75_second_connection_takes_the_place_of_another_federate",
    "ReactorC.Join.P2p.C75_port_is_an_advertised_one",
    "ReactorC.Join.P2p.C75_advertised_port_is_found",
    "ReactorC.Join.P2p.C75_rejected_federate_tries_without_end",
    "ReactorC.Join.P2p.C75_unconnected_socket_is_recorded",
    "ReactorC.Join.P2p.C75_acknowledged_federate_is_connected"
   ],
   "note": "Proved: members are accepted; whoever sends another type of message or a federation ID of which none is a prefix of the other is rejected; all expected federates are recorded with their own connections in any order, with others in between; the port is the advertised one. Fails, each shown: a longer federation ID is accepted; a shorter one is compared beyond its end; an ID out of range is written beyond the end of the array; a second connection takes the place of another federate; a rejected federate tries again without end and leaves a socket open each time; after the RTI has failed, an unconnected socket is recorded."
  },
  {
   "property": "C76",
   "status": "partial",
   "theorems": [
    "ReactorC.DecFed.C76_ended_when_the_time_has_passed_partial",
    "ReactorC.DecFed.C76_the_end_can_be_reached_partial",
    "ReactorC.DecFed.C76_the_end_can_be_reached_from_the_start_partial",
    "ReactorC.DecFed.C76_no_message_is_tardy_partial",
    "ReactorC.DecFed.C76_every_message_arrives_partial",
    "ReactorC.DecFed.C76_results_do_not_depend_on_timing_partial",
    "ReactorC.DecFed.C76_same_up_to_a_tag_partial",
    "ReactorC.DecFed.C76_federation_computes_the_program_partial",
    "ReactorC.DecFed.C76_federation_computes_all_partial",
    "ReactorC.DecFed.C76_same_as_with_the_RTI_partial",
    "ReactorC.DecFed.C76_fails_if_offsets_do_not_cover"
   ],
   "note": "Proved for every program without cycles of connections without delay and every setup whose offsets cover the bounds: messages are neither late nor lost nor changed, and results agree with each other, with the sequential execution and with centralized coordination (C71); a federate whose clock is past the stop tag and its lag has executed all of the program; and the assumed bounds do not stop time: from every state (in which no message for the start tag comes in in the moment of the start) the end and any later time can be reached. When the offsets do not cover the bounds it fails, and no handler is called (C76_fails_if_offsets_do_not_cover). Left out: zero-delay cycles, physical connections and actions, requested stops, federates that leave before their end, port-absent notices on connections with a positive delay, and executions in which a port gets two messages for one tag."
  },
  {
   "property": "C77",
   "status": "partial",
   "theorems": [
    "ReactorC.Platform.Sleep.C77_patmos_sleep",
    "ReactorC.Platform.Sleep.C77_arduino_sleeps_without_interrupts",
    "ReactorC.Platform.Sleep.C77_arduino_misses_event",
    "ReactorC.Platform.Sleep.C77_zephyr_kernel_sleep",
    "ReactorC.Platform.Sleep.C77_zephyr_counter_sleep_partial",
    "ReactorC.Platform.Sleep.C77_zephyr_counter_ends_early",
    "ReactorC.Platform.Sleep.C77_rp2040_sleep_partial",
    "ReactorC.Platform.Sleep.C77_rp2040_passes_an_event",
    "ReactorC.Platform.Sleep.C77_flexpret_misses_event",
    "ReactorC.Platform.Sleep.C77_flexpret_sleeps_on",
    "ReactorC.Platform.Sleep.C77_nrf52_sleep_partial",
    "ReactorC.Platform.Sleep.C77_nrf52_sleeps_too_long"
   ],
   "note": "Proved for Patmos and for Zephyr with the timer of the kernel; up to a tolerance (a microsecond, and the runtime overhead of the board) for Zephyr with a counter, RP2040 and nRF52. Missing and false: the rest; Arduino sleeps with interrupts disabled and forgets events, FlexPRET forgets events and sleeps on after an interrupt, RP2040 passes events by less than a microsecond, Zephyr with a counter returns early, and nRF52 oversleeps by 71 minutes after a long sleep; each with a theorem."
  },
  {
   "property": "C78",
   "status": "partial",
   "theorems": [
    "ReactorC.ClockSync.Udp.C78_only_exchanges_with_equal_delays_count",
    "ReactorC.ClockSync.Udp.C78_exchanges_are_real_partial",
    "ReactorC.ClockSync.Udp.C78_clock_error_bounded_partial",
    "ReactorC.ClockSync.Udp.C78_initial_synchronization",
    "ReactorC.ClockSync.Udp.C78_no_stale_replies",
    "ReactorC.ClockSync.Udp.C78_lost_T1_ends_synchronization",
    "ReactorC.ClockSync.Udp.C78_lost_T3_ends_synchronization",
    "ReactorC.ClockSync.Udp.C78_lost_probe_ends_synchronization",
    "ReactorC.ClockSync.Udp.C78_duplicates_spoil_the_clock"
   ],
   "note": "Proved: with losses, every correction comes from a real exchange, and the error of the clocks is bounded. Missing and false: that synchronization goes on; the loss of one T1, T3 or coded probe ends it for all federates (three theorems), because the RTI reads again and again when there is nothing to read. If the network duplicates and reorders datagrams the bound is false as well (theorem)."
  },
  {
   "property": "C79",
   "status": "partial",
   "theorems": [
    "Verif.RtiAddr.C79_the_search_is_leftmost_and_longest",
    "Verif.RtiAddr.C79_an_address_is_stored_as_written_partial",
    "Verif.RtiAddr.C79_the_federate_connects_where_it_is_told_partial",
    "Verif.RtiAddr.C79_characters",
    "Verif.RtiAddr.C79_a_text_is_unreadable_when_nothing_of_it_can_be_a_host",
    "Verif.RtiAddr.C79_an_accepted_text_contains_the_address_that_is_stored",
    "Verif.RtiAddr.C79_the_parts_fit_into_their_buffers",
    "Verif.RtiAddr.C79_not_what_follows_is_ignored",
    "Verif.RtiAddr.C79_not_what_precedes_is_ignored",
    "Verif.RtiAddr.C79_not_long_ports_are_cut",
    "Verif.RtiAddr.C79_not_high_ports_are_used",
    "Verif.RtiAddr.C79_not_hosts_are_checked",
    "Verif.RtiAddr.C79_not_only_addresses_are_accepted"
   ],
   "note": "Proved: every well-formed address is stored as written and, with a port from 1 to 32767, used; what accepting and refusing mean for every text; nothing overflows. Missing and false: that other texts are refused. What follows or precedes an address is ignored, a sixth digit of a port is dropped, a port above 32767 is accepted but not used, and hosts are hardly checked (six theorems). Trusted: that regexec of the C library follows POSIX."
  },
  {
   "property": "C80",
   "status": "partial",
   "theorems": [
    "Verif.Memory.C80_proper_use_is_safe",
    "Verif.Memory.C80_termination_frees_all_but_the_leaks_partial",
    "Verif.Memory.C80_programs_without_leaks_free_all_memory",
    "Verif.Memory.C80_termination_runs_once",
    "Verif.Memory.C80_abnormal_termination_frees_nothing",
    "Verif.Memory.C80_not_events_are_freed",
    "Verif.Memory.C80_not_events_are_freed_earlier",
    "Verif.Memory.C80_not_watchdogs_are_freed",
    "Verif.Memory.C80_not_safe_with_two_watchdogs_in_a_reactor",
    "Verif.Memory.C80_not_safe_whenever_two_watchdogs_share_a_reactor",
    "Verif.Memory.C80_not_safe_when_new_reactors_are_freed_early"
   ],
   "note": "Proved for all proper histories: nothing is undefined behaviour before the end; at the end nothing is freed twice unless a reactor has two watchdogs, and exactly the memory listed in Leaks stays allocated. Missing and false: events, arrays of watchdogs and mutexes of enclaves are not freed, and a reactor with two watchdogs makes the program free its mutex twice (theorems with _not_)."
  },
  {
   "property": "C81",
   "status": "partial",
   "theorems": [
    "ReactorC.Async.C81_no_tag_begins_before_its_time",
    "ReactorC.Async.C81_events_are_processed_in_order_and_once",
    "ReactorC.Async.C81_no_event_is_lost",
    "ReactorC.Async.C81_events_up_to_the_stop_tag_are_accepted",
    "ReactorC.Async.C81_wakeups_are_not_lost",
    "ReactorC.Async.C81_due_events_are_begun",
    "ReactorC.Async.C81_shutdown_at_most_once",
    "ReactorC.Async.C81_ends_at_the_stop_tag_after_shutdown_partial",
    "ReactorC.Async.C81_stop_requests_end_the_program_partial",
    "ReactorC.Async.C81_not_shutdown_when_another_thread_stops",
    "ReactorC.Async.C81_not_shutdown_with_enclaves",
    "ReactorC.Async.C81_not_all_enclaves_are_woken",
    "ReactorC.Async.C81_not_kept_alive_when_fast"
   ],
   "note": "Proved for all interleavings: tags begin in order, once and not before their time, no accepted event is lost, no wake-up of the first environment is lost, shutdown reactions are executed at most once, and, with one environment, a served stop request ends the program within four steps of its worker. Missing and false: with another thread that requests the stop, or with enclaves, shutdown reactions can be omitted; enclaves other than the first are not woken by a stop request (theorems with _not_)."
  },
  {
   "property": "C82",
   "status": "partial",
   "theorems": [
    "ReactorC.Rti.C82_departed_federates_block_nobody_partial",
    "ReactorC.Rti.C82_not_crashed_federates_block_nobody",
    "ReactorC.Leave.C82_messages_of_the_rti_are_understood",
    "ReactorC.Leave.C82_what_arrives_completely_is_handled",
    "ReactorC.Leave.C82_unknown_messages_end_the_federate",
    "ReactorC.Leave.C82_every_crash_point",
    "ReactorC.Leave.C82_farewells_are_understood",
    "ReactorC.Leave.C82_the_rti_ends",
    "ReactorC.Leave.C82_reported_failures_reach_the_exit_code_partial",
    "ReactorC.Leave.C82_exit_code_zero",
    "ReactorC.Leave.C82_crash_within_a_message_ends_the_federation",
    "ReactorC.Leave.C82_told_only_at_an_abnormal_end",
    "ReactorC.Leave.C82_noticed_crashes_end_nobody",
    "ReactorC.Leave.C82_not_crashes_reach_the_exit_code",
    "ReactorC.Leave.C82_not_messages_to_crashed_federates_are_dropped",
    "ReactorC.Leave.C82_federates_that_are_told_end",
    "ReactorC.Leave.C82_not_federates_end_without_the_rti"
   ],
   "note": "Proved: what the RTI handles for every sequence of messages and every crash point, the end of the RTI in every interleaving and its exit code, that federates that resigned or reported a failure block nobody, that federates that are told end. Missing and false: a crash between messages blocks federates downstream for ever and is not reported in the exit code, a message to a crashed federate may end the RTI, and a federate that waits for a grant waits for ever if the RTI disappears (theorems with _not_)."
  },
  {
   "property": "C83",
   "status": "partial",
   "theorems": [
    "ReactorC.Python.C83_no_freed_object_is_used_partial",
    "ReactorC.Python.C83_reference_counts_partial",
    "ReactorC.Python.C83_freed_when_unused_partial",
    "ReactorC.Python.C83_reads_what_was_set_partial",
    "ReactorC.Python.C83_present_if_set_now",
    "ReactorC.Python.C83_index",
    "ReactorC.Python.C83_iteration_visits_all_channels",
    "ReactorC.Python.C83_scheduled_values_are_alive_partial",
    "ReactorC.Python.C83_not_second_port_object_is_up_to_date",
    "ReactorC.Python.C83_not_stored_port_objects_are_valid",
    "ReactorC.Python.C83_not_index_of_a_single_port",
    "ReactorC.Python.C83_not_arguments_may_be_released",
    "ReactorC.Python.C83_not_indices_are_checked",
    "ReactorC.Python.C83_not_absent_ports_are_none",
    "ReactorC.Python.C83_not_empty_multiports_can_be_iterated",
    "ReactorC.Python.C83_not_nested_loops_end",
    "ReactorC.Python.C83_not_scheduled_values_are_freed"
   ],
   "note": "Proved for all programs that read port objects only while the port has not been set again, index multiports in range, and whose generated code keeps the arguments of reactions: exact reference counts, no use of freed objects, values and presence; indexing and iteration in order for all widths. Missing and false: port objects that are kept, port[0] of single ports, indices out of range, absent ports, empty multiports, nested loops, scheduled values (theorems with _not_)."
  },
  {
   "property": "C84",
   "status": "partial",
   "theorems": [
    "ReactorC.Python.C84_tag_has_its_arguments_partial",
    "ReactorC.Python.C84_times_are_checked",
    "ReactorC.Python.C84_operators_compare_logical_time_partial",
    "ReactorC.Python.C84_texts_are_different",
    "ReactorC.Python.C84_arrival_times_partial",
    "ReactorC.Python.C84_not_microsteps_are_checked",
    "ReactorC.Python.C84_not_negative_microsteps_are_rejected",
    "ReactorC.Python.C84_not_microsteps_on_big_endian",
    "ReactorC.Python.C84_not_arrival_times"
   ],
   "note": "Proved: arguments, operators and texts of tags on all machines that are little-endian or have a 32-bit long. Missing and false: microsteps out of range are accepted, big-endian machines with a 64-bit long lose the microstep, and with centralized coordination only half of the arrival time is read (theorems with _not_)."
  },
  {
   "property": "C85",
   "status": "partial",
   "theorems": [
    "ReactorC.Cycle.C85_no_message_too_late_partial",
    "ReactorC.Cycle.C85_results_of_the_program_partial",
    "ReactorC.Cycle.C85_executions_agree",
    "ReactorC.Cycle.C85_no_deadlock",
    "ReactorC.Cycle.C85_terminates",
    "ReactorC.Cycle.C85_completes_partial",
    "ReactorC.Cycle.C85_one_result",
    "ReactorC.Cycle.C85_loops_never_complete",
    "ReactorC.Cycle.C85_not_without_order",
    "ReactorC.Rti.C85_not_delayed_messages_between_cycles"
   ],
   "note": "Proved for one tag after the start tag, connections without delay, all programs whose generated tables are consistent (structure WF) and all interleavings of the critical sections; grants come when the condition of the RTI (C25-C27) holds. Missing and false: messages over connections with a delay from a federate on another zero-delay cycle can be too late (C85_not_delayed_messages_between_cycles); those within a cycle cannot (C25_provisional_grant_excludes_delayed_messages_within_cycles). Not covered: the start tag, decentralized coordination, failures."
  },
  {
   "property": "C86",
   "status": "partial",
   "theorems": [
    "ReactorC.Cycle.Run.C86_not_with_delays_between_cycles",
    "ReactorC.Cycle.Run.C86_fair_executions_complete_partial",
    "ReactorC.Cycle.Run.C86_fair_executions_exist_partial",
    "ReactorC.Cycle.Run.C86_fair_executions_have_the_inputs_partial",
    "ReactorC.Cycle.Run.C86_fair_executions_have_the_states_partial",
    "ReactorC.Cycle.Run.C86_no_message_too_late_partial",
    "ReactorC.Cycle.Run.C86_results_of_the_program_partial",
    "ReactorC.Cycle.Run.C86_completes_partial",
    "ReactorC.Cycle.Run.C86_no_deadlock_partial",
    "ReactorC.Cycle.Run.C86_one_result_partial",
    "ReactorC.Cycle.Run.C86_executions_agree_partial"
   ],
   "note": "For all programs whose generated tables are consistent (structure WF) and without connections with a delay from one zero-delay cycle to another, and all interleavings of the critical sections; grants come when the condition of the RTI (C25-C27) holds. Missing and false: with such connections a message can be too late (C86_not_with_delays_between_cycles). Federates go through every tag of the execution; stop requests, physical connections, decentralized coordination and failures are not covered. C86_completes_partial is about what is possible from every reachable state; C86_fair_executions_complete_partial says that every fair execution (due grants are given, federates go on, messages arrive) completes every tag."
  },
  {
   "property": "C87",
   "status": "partial",
   "theorems": [
    "ReactorC.RtiArgs.C87_options_are_understood_partial",
    "ReactorC.RtiArgs.C87_unknown_words_are_refused",
    "ReactorC.RtiArgs.C87_bad_arguments_are_refused",
    "ReactorC.RtiArgs.C87_accepted_settings",
    "ReactorC.RtiArgs.C87_not_options_after_clock_sync",
    "ReactorC.RtiArgs.C87_not_in_any_order",
    "ReactorC.RtiArgs.C87_not_large_numbers_are_refused",
    "ReactorC.RtiArgs.C87_not_nonsense_is_refused",
    "ReactorC.RtiArgs.C87_defaults_partial",
    "ReactorC.RtiArgs.C87_period_not_as_documented",
    "ReactorC.RtiArgs.C87_period_only_with_on"
   ],
   "note": "Proved: documented options in any order are understood if the one for clock synchronization is the last; unknown words, bad values and missing arguments are refused; the port of an accepted line is in the range. False of the code, with theorems for it: the word after the arguments of -c is skipped, whatever it is, and its argument is then taken for an option (C87_not_options_after_clock_sync, C87_not_in_any_order); numbers that do not fit are truncated, and a port larger than 2^32 can be taken for another one (C87_not_large_numbers_are_refused); nonsense after a number or after -c is accepted (C87_not_nonsense_is_refused). Printed text is not modelled."
  },
  {
   "property": "C88",
   "status": "partial",
   "theorems": [
    "ReactorC.TraceSum.C88_events_are_counted_partial",
    "ReactorC.TraceSum.C88_reaction_statistics_partial",
    "ReactorC.TraceSum.C88_schedule_calls_are_counted_partial",
    "ReactorC.TraceSum.C88_user_events_partial",
    "ReactorC.TraceSum.C88_worker_statistics_partial",
    "ReactorC.TraceSum.C88_not_safe_when_time_advances",
    "ReactorC.TraceSum.C88_not_safe_with_many_workers",
    "ReactorC.TraceSum.C88_shortest_not_zero",
    "ReactorC.TraceSum.C88_greatest_not_negative",
    "ReactorC.TraceSum.C88_values_not_shown",
    "ReactorC.TraceSum.C88_waits_not_reported",
    "ReactorC.TraceSum.C88_waits_not_measured",
    "ReactorC.TraceSum.C88_unknown_reactors_not_kept_apart"
   ],
   "note": "Proved for traces whose objects are all in the table, with less than 32 workers and without records of the advancement of time: all counts, and the lines of reactions, workers and labels if beginnings and ends alternate and durations and values are positive. False of the code, with theorems for it: every record of the advancement of time, which the threaded runtime writes with worker -1, makes the tool write outside of an array (C88_not_safe_when_time_advances), and so do workers 32 to 90 (C88_not_safe_with_many_workers); a duration of 0 is not the least (C88_shortest_not_zero); the greatest of negative values is 0 (C88_greatest_not_negative); values are not shown if the last event with the label has none (C88_values_not_shown); waits of a worker that still waits at the end are not reported (C88_waits_not_reported); a wait that begins before the given time is measured from 1970 (C88_waits_not_measured); unknown reactors are counted as the first entry (C88_unknown_reactors_not_kept_apart). Percentages, which are floating-point numbers, and overflow of sums are not modelled."
  },
  {
   "property": "C89",
   "status": "partial",
   "theorems": [
    "ReactorC.Wave.C89_files_are_read_partial",
    "ReactorC.Wave.C89_missing_samples_are_zero_partial",
    "ReactorC.Wave.C89_length_is_that_of_the_memory",
    "ReactorC.Wave.C89_where_files_are_looked_for",
    "ReactorC.Wave.C89_null_not_for_unsupported_formats",
    "ReactorC.Wave.C89_unsupported_formats_not_refused",
    "ReactorC.Wave.C89_empty_files_not_refused",
    "ReactorC.Wave.C89_chunks_of_odd_size_not_skipped",
    "ReactorC.Wave.C89_chunks_not_safe",
    "ReactorC.Wave.C89_files_without_data_not_refused",
    "ReactorC.Wave.C89_length_not_a_multiple",
    "ReactorC.Wave.C89_files_not_closed"
   ],
   "note": "Proved for files in the supported format whose chunks before the data are of even, non-zero size and fit on the stack, and for files that end early (missing samples are 0). False of the code, with theorems for it: no file that can be opened is refused, whatever its format (C89_null_not_for_unsupported_formats, C89_unsupported_formats_not_refused, C89_empty_files_not_refused, C89_files_without_data_not_refused); the padding of chunks of odd size is not skipped (C89_chunks_of_odd_size_not_skipped); empty and large chunks are undefined behaviour (C89_chunks_not_safe); the file is never closed, so that later calls fail (C89_files_not_closed)."
  },
  {
   "property": "C90",
   "status": "partial",
   "theorems": [
    "ReactorC.Audio.C90_frames_are_played_in_order_partial",
    "ReactorC.Audio.C90_reads_are_safe_partial",
    "ReactorC.Audio.C90_positions_are_in_the_waveform_partial",
    "ReactorC.Audio.C90_last_frame_not_played",
    "ReactorC.Audio.C90_notes_begin_in_time",
    "ReactorC.Audio.C90_calls_wait_for_their_buffer",
    "ReactorC.Audio.C90_samples_are_limited",
    "ReactorC.Audio.C90_empty_waveforms_not_safe",
    "ReactorC.Audio.C90_long_notes_not_in_order_on_linux",
    "ReactorC.Audio.C90_notes_not_heard_on_linux"
   ],
   "note": "Proved for macOS and waveforms with at least one frame: frames in order on consecutive samples from the right one on, reads within the waveform. Limits of samples, waiting and lateness are proved for both platforms and any waveform. False of the code, with theorems for it: the last frame of a waveform with two or more frames is never played (C90_last_frame_not_played); an empty waveform in the place of an unfinished note makes the next callback read outside of memory (C90_empty_waveforms_not_safe); on Linux the rest of a note is written at the beginning of the same buffer instead of the next one (C90_long_notes_not_in_order_on_linux) and notes between callback and change of buffer are lost (C90_notes_not_heard_on_linux). Floating-point computation is any function; overflow of times is not modelled."
  },
  {
   "property": "C91",
   "status": "partial",
   "theorems": [
    "ReactorC.Printing.C91_messages_are_printed_partial",
    "ReactorC.Printing.C91_registered_function_gets_messages_partial",
    "ReactorC.Printing.C91_errors_are_printed_partial",
    "ReactorC.Printing.C91_fatal_errors_end_the_process_partial",
    "ReactorC.Printing.C91_system_failures_are_described_partial",
    "ReactorC.Printing.C91_warnings_not_always_printed",
    "ReactorC.Printing.C91_function_not_by_level",
    "ReactorC.Printing.C91_macros_not_by_level",
    "ReactorC.Printing.C91_names_not_safe",
    "ReactorC.Printing.C91_failures_not_described"
   ],
   "note": "Proved for names without %, identities below 2^31, and formats with conversions of one character. False of the code or its comments, with theorems for it: warnings are not printed at level 0 although levels 0 to 2 are documented to be the same (C91_warnings_not_always_printed); the registered function gets all messages that are printed, not only those of its level (C91_function_not_by_level); LF_PRINT_LOG and LF_PRINT_DEBUG do not obey the registered level (C91_macros_not_by_level); a name with % is part of the format (C91_names_not_safe); the error of the system is read after printing, which may change it (C91_failures_not_described)."
  },
  {
   "property": "C92",
   "status": "partial",
   "theorems": [
    "ReactorC.Sensor.C92_messages_are_shown_in_order_partial",
    "ReactorC.Sensor.C92_all_messages_are_shown_partial",
    "ReactorC.Sensor.C92_nodes_are_used_again",
    "ReactorC.Sensor.C92_windows_are_respected",
    "ReactorC.Sensor.C92_ticks_not_freed",
    "ReactorC.Sensor.C92_percent_not_shown",
    "ReactorC.Sensor.C92_registering_gives_codes",
    "ReactorC.Sensor.C92_keys_schedule_actions",
    "ReactorC.Sensor.C92_special_keys_not_told_apart",
    "ReactorC.Sensor.C92_restart_not_clean",
    "ReactorC.Sensor.C92_second_start_not_ignored",
    "ReactorC.Sensor.C92_log_files_not_safe",
    "ReactorC.Sensor.C92_end_not_twice"
   ],
   "note": "Proved for texts without %: order, completeness, windows, reuse of nodes; codes and scheduling for all registrations and keys. False of the code, with theorems for it: text with % is taken for a format (C92_percent_not_shown); ticks are never freed (C92_ticks_not_freed); with a log file the arguments are used twice (C92_log_files_not_safe); a second start loses messages (C92_second_start_not_ignored) and forgets some keys but not others (C92_restart_not_clean); ending in a reaction and at exit joins a thread and closes a file twice (C92_end_not_twice); keys from code 256 on are given as their low byte (C92_special_keys_not_told_apart)."
  },
  {
   "property": "C93",
   "status": "partial",
   "theorems": [
    "ReactorC.Influx.C93_lines_are_written_partial",
    "ReactorC.Influx.C93_only_lines_are_accepted",
    "ReactorC.Influx.C93_long_lines_not_complete",
    "ReactorC.Influx.C93_long_names_not_safe",
    "ReactorC.Influx.C93_backslashes_not_escaped",
    "ReactorC.Influx.C93_requests_partial",
    "ReactorC.Influx.C93_failures_not_reported",
    "ReactorC.Influx.C93_records_are_uploaded_partial",
    "ReactorC.Influx.C93_count_not_total",
    "ReactorC.Influx.C93_failures_end_the_upload",
    "ReactorC.Influx.C93_reactions_not_told_apart"
   ],
   "note": "Proved for lines of less than 256 characters together, names without line breaks and without a backslash at the end, strings without backslashes, numbers of reactions below 1000, and tokens of at most 98 characters; which arguments are accepted is proved for all. False of the code, with theorems for it: what does not fit is not printed again after the buffer was enlarged (C93_long_lines_not_complete); names of more than 512 characters are written behind the buffer (C93_long_names_not_safe); backslashes are not escaped (C93_backslashes_not_escaped); the URL is cut to the length of the line (C93_requests_partial); refused arguments and long tokens are undefined behaviour (C93_failures_not_reported); reactions from 1000 on lose digits (C93_reactions_not_told_apart); the number printed is that of the last chunk (C93_count_not_total)."
  },
  {
   "property": "C94",
   "status": "partial",
   "theorems": [
    "ReactorC.Http.C94_status_is_returned",
    "ReactorC.Http.C94_body_is_read",
    "ReactorC.Http.C94_one_result",
    "ReactorC.Http.C94_closed_connections_not_noticed",
    "ReactorC.Http.C94_errors_are_noticed",
    "ReactorC.Http.C94_no_status_not_noticed",
    "ReactorC.Http.C94_line_feeds_not_understood",
    "ReactorC.Http.C94_requests_are_read_partial",
    "ReactorC.Http.C94_long_requests_not_sent",
    "ReactorC.Http.C94_names_not_encoded",
    "ReactorC.Http.C94_stages",
    "ReactorC.Http.C94_memory_is_freed_partial"
   ],
   "note": "Proved for all answers that end their headers with an empty line, in any pieces, with anything behind; for requests whose headers have less than 2048 bytes and names without separators; and for all failures of the system. False of the code, with theorems for it: when the server closes the connection before the empty line, the call never returns (C94_closed_connections_not_noticed), nor does it for lines that end with a line feed only (C94_line_feeds_not_understood); an answer without a status counts as success (C94_no_status_not_noticed); long headers are sent with bytes of the memory (C94_long_requests_not_sent); names are not encoded (C94_names_not_encoded); memory is lost when it cannot be enlarged (C94_memory_is_freed_partial)."
  },
  {
   "property": "C95",
   "status": "partial",
   "theorems": [
    "ReactorC.Rust.C95_camel_case",
    "ReactorC.Rust.C95_code_is_read_partial",
    "ReactorC.Rust.C95_code_works_partial",
    "ReactorC.Rust.C95_event_types",
    "ReactorC.Rust.C95_same_words_not_accepted",
    "ReactorC.Rust.C95_descriptions_not_escaped"
   ],
   "note": "Proved for all lists of descriptions that begin with a letter, have no quotation marks, backslashes, braces or line breaks, and differ in their words; the descriptions there are meet this (C95_event_types). For others it is false: C95_same_words_not_accepted, C95_descriptions_not_escaped."
  },
  {
   "property": "C96",
   "status": "partial",
   "theorems": [
    "ReactorC.Chrome.C96_output_is_read_partial",
    "ReactorC.Chrome.C96_begins_match_ends",
    "ReactorC.Chrome.C96_advances_not_matched",
    "ReactorC.Chrome.C96_rows_are_named",
    "ReactorC.Chrome.C96_advances_not_named",
    "ReactorC.Chrome.C96_rows_are_apart",
    "ReactorC.Chrome.C96_descriptions_not_escaped",
    "ReactorC.Chrome.C96_reaction_numbers_cut",
    "ReactorC.Chrome.C96_user_events_not_in_physical_time",
    "ReactorC.Chrome.C96_physical_time",
    "ReactorC.Chrome.C96_output_name",
    "ReactorC.Chrome.C96_input_is_overwritten",
    "ReactorC.Chrome.C96_arguments"
   ],
   "note": "Proved for all traces whose descriptions have no quotation marks, backslashes or control characters, with reaction numbers below 1000 and microsteps below 2^31; without these it is false: C96_descriptions_not_escaped, C96_reaction_numbers_cut. Ends of advances of time do not match their begins (C96_advances_not_matched), and their row has no name (C96_advances_not_named); the row of user events says physical time, but shows logical time (C96_user_events_not_in_physical_time); a trace file named .json is overwritten (C96_input_is_overwritten)."
  },
  {
   "property": "C97",
   "status": "proved",
   "theorems": [
    "ReactorC.Ports.C97_rti_listens_on_default_port",
    "ReactorC.Ports.C97_rti_takes_least_free_port",
    "ReactorC.Ports.C97_rti_gives_up_after_all_ports",
    "ReactorC.Ports.C97_rti_takes_the_given_port",
    "ReactorC.Ports.C97_rti_exits_without_the_given_port",
    "ReactorC.Ports.C97_udp_port_is_next",
    "ReactorC.Ports.C97_udp_port_not_searched",
    "ReactorC.Ports.C97_search_ends",
    "ReactorC.Ports.C97_federate_finds_rti",
    "ReactorC.Ports.C97_rti_and_federate_meet",
    "ReactorC.Ports.C97_joined_port_has_acknowledged",
    "ReactorC.Ports.C97_federate_finds_rti_on_given_port",
    "ReactorC.Ports.C97_rti_elsewhere_not_found",
    "ReactorC.Ports.C97_high_port_not_found",
    "ReactorC.Ports.C97_given_default_port_not_searched"
   ],
   "note": "For all histories of the ports and all answers. Limits: the port for clock synchronization is not searched (C97_udp_port_not_searched); an RTI on another port is not found without being given the port (C97_rti_elsewhere_not_found), nor with it if it is above 32767 (C97_high_port_not_found); a federate that is given the first default port does not search the others (C97_given_default_port_not_searched). That a federate goes on after the minute if the last connection was not acknowledged is C30_rejected_federate_goes_on."
  },
  {
   "property": "C98",
   "status": "partial",
   "theorems": [
    "ReactorC.Threads.C98_identifiers_differ",
    "ReactorC.Threads.C98_user_threads_have_no_identifier",
    "ReactorC.Threads.C98_buffers_suffice_partial",
    "ReactorC.Threads.C98_no_write_outside_partial",
    "ReactorC.Threads.C98_federate_buffers_suffice_partial",
    "ReactorC.Threads.C98_rti_buffers_suffice",
    "ReactorC.Threads.C98_watchdogs_not_counted",
    "ReactorC.Threads.C98_one_watchdog_not_noticed",
    "ReactorC.Threads.C98_other_environments_not_counted",
    "ReactorC.Threads.C98_number_of_workers",
    "ReactorC.Threads.C98_unknown_cores_not_handled",
    "ReactorC.Threads.C98_all_workers_run",
    "ReactorC.Threads.C98_created_threads_take_identifiers",
    "ReactorC.Threads.C98_workers_run_once",
    "ReactorC.Threads.C98_breadth_zero_not_executed",
    "ReactorC.Threads.C98_worker_numbers_partial",
    "ReactorC.Threads.C98_early_end_not_handled"
   ],
   "note": "Proved for all orders of threads. Buffers suffice in RTIs, in federates without watchdogs, and in programs without watchdogs whose environments have the same number of workers; otherwise it is false: C98_watchdogs_not_counted, C98_one_watchdog_not_noticed, C98_other_environments_not_counted. Numbers of workers differ if no worker ends before all have begun, which the schedulers see to (assumed here); C98_early_end_not_handled shows that it is needed. A breadth of 0 leaves a program without workers (C98_breadth_zero_not_executed); an unknown number of cores is not handled (C98_unknown_cores_not_handled)."
  },
  {
   "property": "C99",
   "status": "partial",
   "theorems": [
    "ReactorC.TraceArgs.C99_csv_command_line_partial",
    "ReactorC.TraceArgs.C99_csv_files",
    "ReactorC.TraceArgs.C99_memory_in_front_is_irrelevant",
    "ReactorC.TraceArgs.C99_end_of_lft_not_safe",
    "ReactorC.TraceArgs.C99_minus_one_nanosecond_not_accepted",
    "ReactorC.TraceArgs.C99_long_options_not_accepted",
    "ReactorC.TraceArgs.C99_missing_file_not_handled",
    "ReactorC.TraceArgs.C99_influx_command_line",
    "ReactorC.TraceArgs.C99_influx_other_command_lines",
    "ReactorC.TraceArgs.C99_influx_unknown_option_not_rejected",
    "ReactorC.TraceArgs.C99_influx_invalid_port_not_rejected",
    "ReactorC.TraceArgs.C99_reported_number_not_total"
   ],
   "note": "Proved for all command lines whose arguments are not proper ends of .lft and whose times are not -1 nanosecond; for these it is false (C99_end_of_lft_not_safe, C99_minus_one_nanosecond_not_accepted). It is also false for the long names of options that the usage names (C99_long_options_not_accepted), without a trace file (C99_missing_file_not_handled), and for the number of records that the upload reports (C99_reported_number_not_total); the upload takes unknown options for files and accepts a port that is not a number (C99_influx_unknown_option_not_rejected, C99_influx_invalid_port_not_rejected)."
  },
  {
   "property": "C100",
   "status": "partial",
   "theorems": [
    "ReactorC.PQueue.C100_check_is_exact",
    "ReactorC.PQueue.C100_check_accepts_every_history",
    "ReactorC.PQueue.C100_print_shows_all_in_order",
    "ReactorC.PQueue.C100_print_positions_not_kept",
    "ReactorC.PQueue.C100_remove_after_print_not_safe",
    "ReactorC.PQueue.C100_dump_shows_all"
   ],
   "note": "Proved but for the last part: printing changes the positions that are stored in the elements, all of them to 1 (C100_print_positions_not_kept), so that afterwards removing any element removes the first one (C100_remove_after_print_not_safe)."
  },
  {
   "property": "C101",
   "status": "partial",
   "theorems": [
    "ReactorC.Windows.C101_timeout_is_not_early",
    "ReactorC.Windows.C101_waits_are_as_long_as_asked",
    "ReactorC.Windows.C101_timeouts_are_reported",
    "ReactorC.Windows.C101_long_waits_not_ended",
    "ReactorC.Windows.C101_no_wait_for_the_past",
    "ReactorC.Windows.C101_signals_end_waits",
    "ReactorC.Windows.C101_sleep_lasts",
    "ReactorC.Windows.C101_sleep_may_end",
    "ReactorC.Windows.C101_sleep_result_not_as_documented",
    "ReactorC.Windows.C101_tags_are_not_early_partial",
    "ReactorC.Windows.C101_tags_are_not_late",
    "ReactorC.Windows.C101_failed_timer_not_waited_for",
    "ReactorC.Windows.C101_clock_is_accurate",
    "ReactorC.Windows.C101_clock_is_monotone",
    "ReactorC.Windows.C101_failed_reading_not_reported",
    "ReactorC.Windows.C101_clock_without_counter_not_usable"
   ],
   "note": "Proved for the clock with the counter, and for waits of up to 4294967294 ms. Longer waits for condition variables are infinite (C101_long_waits_not_ended); a failure of the counter is reported as success (C101_failed_reading_not_reported); without a counter the clock always shows the least time (C101_clock_without_counter_not_usable); the results of sleeps are the wrong way round (C101_sleep_result_not_as_documented), so that a failing timer lets the tag advance at once (C101_failed_timer_not_waited_for), which C101_tags_are_not_early_partial excludes."
  },
  {
   "property": "C102",
   "status": "partial",
   "theorems": [
    "ReactorC.Args.C102_program_runs_iff",
    "ReactorC.Args.C102_program_refuses_otherwise",
    "ReactorC.Args.C102_command_line_comes_last",
    "ReactorC.Args.C102_command_line_replaces_defaults",
    "ReactorC.Args.C102_last_timeout_counts",
    "ReactorC.Args.C102_nothing_given",
    "ReactorC.Args.Py.C102_python_arguments_are_passed",
    "ReactorC.Args.Py.C102_python_without_arguments",
    "ReactorC.Args.Py.C102_python_wrong_items_are_refused",
    "ReactorC.Args.Py.C102_python_other_objects_not_refused",
    "ReactorC.Args.Py.C102_python_more_arguments_not_safe",
    "ReactorC.Args.Py.C102_python_zeros_not_passed"
   ],
   "note": "Proved but for wrong arguments of start: an argument that is not a list is ignored (C102_python_other_objects_not_refused), with two arguments the number of options is not set and options may be read from a null pointer (C102_python_more_arguments_not_safe), and strings are cut at a character 0 (C102_python_zeros_not_passed)."
  },
  {
   "property": "C103",
   "status": "partial",
   "theorems": [
    "ReactorC.Platform.ThreadSched.Linux.C103_other_threads_are_not_affected",
    "ReactorC.Platform.ThreadSched.Linux.C103_priority_is_set",
    "ReactorC.Platform.ThreadSched.Linux.C103_policy_is_set",
    "ReactorC.Platform.ThreadSched.Linux.C103_order_of_priorities_is_kept",
    "ReactorC.Platform.ThreadSched.Linux.C103_policies_can_be_set",
    "ReactorC.Platform.ThreadSched.Linux.C103_refused_priority_has_no_effect",
    "ReactorC.Platform.ThreadSched.Linux.C103_refused_policy_has_no_effect_partial",
    "ReactorC.Platform.ThreadSched.Linux.C103_refused_policy_not_without_effect",
    "ReactorC.Platform.ThreadSched.Linux.C103_thread_is_bound_to_processor",
    "ReactorC.Platform.ThreadSched.Zephyr.C103_zephyr_policy_is_set",
    "ReactorC.Platform.ThreadSched.Zephyr.C103_zephyr_policies_can_be_set",
    "ReactorC.Platform.ThreadSched.Zephyr.C103_zephyr_fair_not_available",
    "ReactorC.Platform.ThreadSched.Zephyr.C103_zephyr_short_slices_not_kept",
    "ReactorC.Platform.ThreadSched.Zephyr.C103_zephyr_refused_policy_not_without_effect"
   ],
   "note": "Proved but for refused requests: on Linux a policy with a wrong priority is refused but leaves the thread with the most urgent priority of the policy (C103_refused_policy_not_without_effect; C103_refused_policy_has_no_effect_partial covers policies without priority). On Zephyr fair scheduling is refused, slices of less than a millisecond end slicing, and the slice, which is that of all threads, is set before the priority is checked (three theorems)."
  },
  {
   "property": "C104",
   "status": "partial",
   "theorems": [
    "ReactorC.Platform.Flexpret.C104_instruction_waits_for_the_next_time",
    "ReactorC.Platform.Flexpret.C104_never_early",
    "ReactorC.Platform.Flexpret.C104_sleep_never_short",
    "ReactorC.Platform.Flexpret.C104_exact_in_first_epoch_partial",
    "ReactorC.Platform.Flexpret.C104_too_long_by_the_epochs_before",
    "ReactorC.Platform.Flexpret.C104_sleep_not_bounded",
    "ReactorC.Platform.Flexpret.C104_passed_time_returns_at_once_partial",
    "ReactorC.Platform.Flexpret.C104_passed_time_not_noticed",
    "ReactorC.Platform.Flexpret.C104_short_wait_not_kept",
    "ReactorC.Platform.Flexpret.C104_no_epoch_is_added"
   ],
   "note": "A sleep is never too short (C104_never_early, C104_sleep_never_short), and exact if it begins in the first epoch of 2^32 ns, and in time (C104_exact_in_first_epoch_partial). After that it is too long by all the epochs since the start of the clock (C104_too_long_by_the_epochs_before, C104_sleep_not_bounded), a time that has passed is not noticed (C104_passed_time_not_noticed), and a time that passes during the preparation costs an epoch (C104_short_wait_not_kept). The instructions that wait are taken to behave as the function supposes; they are not part of the repository."
  },
  {
   "property": "C105",
   "status": "partial",
   "theorems": [
    "ReactorC.Platform.ThreadPool.C105_own_stack",
    "ReactorC.Platform.ThreadPool.C105_refused_only_when_none_is_left",
    "ReactorC.Platform.ThreadPool.C105_calls_return_partial",
    "ReactorC.Platform.ThreadPool.C105_calls_after_a_refusal_not_returning",
    "ReactorC.Platform.ThreadPool.C105_pico_one_thread",
    "ReactorC.Platform.ThreadPool.C105_pico_join"
   ],
   "note": "Proved but for what follows a refusal on Zephyr: the call that is refused returns with the mutex locked, and no call by another thread returns after it (C105_calls_after_a_refusal_not_returning; C105_calls_return_partial covers executions without a refusal, and says that some caller can go on, not that the scheduler is fair)."
  },
  {
   "property": "C106",
   "status": "proved",
   "theorems": [
    "ReactorC.Modes.Suspended.C106_begins_empty",
    "ReactorC.Modes.Suspended.C106_suspended_event_is_kept",
    "ReactorC.Modes.Suspended.C106_events_of_the_mode_are_taken",
    "ReactorC.Modes.Suspended.C106_number_is_exact",
    "ReactorC.Modes.Suspended.C106_all_elements_are_freed_once",
    "ReactorC.Modes.Suspended.C106_all_histories",
    "ReactorC.Modes.Suspended.C106_removal_of_others_not_safe"
   ],
   "note": "For elements and pointers, and one environment; C47 has what is done with the events. C106_removal_of_others_not_safe shows that the function crashes for an element that is not in the list, which no caller passes."
  }
 ]
}