ReactorC.C01_compare_decides_lex_order: Classical.choice, Quot.sound, propext
ReactorC.C01_compare_total_order: Classical.choice, Quot.sound, propext
ReactorC.C01_never_least_forever_greatest: Classical.choice, Quot.sound, propext
ReactorC.C02_time_add_saturates: Classical.choice, Quot.sound, propext
ReactorC.C02_time_add_exact: Classical.choice, Quot.sound, propext
ReactorC.C02_time_add_overflow: Classical.choice, Quot.sound, propext
ReactorC.C02_time_add_executes_undefined_overflow: propext
ReactorC.C03_tag_add_ge: Classical.choice, Quot.sound, propext
ReactorC.C03_tag_add_zero: Classical.choice, Quot.sound, propext
ReactorC.C03_tag_add_mono_left_partial: Classical.choice, Quot.sound, propext
ReactorC.C03_tag_add_not_mono_on_microstep_overflow: propext
ReactorC.C03_tag_add_mono_right: Classical.choice, Quot.sound, propext
ReactorC.C03_tag_add_assoc: Classical.choice, Quot.sound, propext
ReactorC.C04_delay_tag_value: Classical.choice, Quot.sound, propext
ReactorC.C04_delay_tag_no_delay: propext
ReactorC.C04_delay_tag_later_partial: Classical.choice, Quot.sound, propext
ReactorC.C04_delay_tag_wraps_backwards: propext
ReactorC.C04_delay_tag_mono: Classical.choice, Quot.sound, propext
ReactorC.C04_delay_tag_valid: Classical.choice, Quot.sound, propext
ReactorC.C05_strict_delay_before_later_arrivals_partial: Classical.choice, Quot.sound, propext
ReactorC.C05_strict_delay_tight: Classical.choice, Quot.sound, propext
ReactorC.C05_strict_delay_zero_not_strict: propext
ReactorC.C05_strict_delay_negative_modifies: none
ReactorC.PQueue.C06_every_history_refines: Classical.choice, Quot.sound, propext
ReactorC.PQueue.C06_drain_sorted: Classical.choice, Quot.sound, propext
ReactorC.PQueue.C06_empty_into: Classical.choice, Quot.sound, propext
ReactorC.PQueue.C07_positions_always_correct: Classical.choice, Quot.sound, propext
ReactorC.PQueue.C08_find_same_priority_exact: Classical.choice, Quot.sound, propext
ReactorC.PQueue.C08_find_equal_exact: Classical.choice, Quot.sound, propext
ReactorC.PQueue.C08_find_by_tag_exact: Classical.choice, Quot.sound, propext
ReactorC.PQueue.C09_insert_if_no_match: Classical.choice, Quot.sound, propext
ReactorC.PQueue.C09_peek_tag_min: Classical.choice, Quot.sound, propext
ReactorC.PQueue.C09_pop_tag: Classical.choice, Quot.sound, propext
ReactorC.PQueue.C09_remove_up_to: Classical.choice, Quot.sound, propext
ReactorC.PQueue.C09_remove_up_to_keeps_forever: Classical.choice, Quot.sound, propext
ReactorC.Sched.C10_schedule_strictly_future_partial: Classical.choice, Quot.sound, propext
ReactorC.Sched.C10_schedule_exact: Classical.choice, Quot.sound, propext
ReactorC.Sched.C10_physical_action_at_current_tag: Classical.choice, Quot.sound, propext
ReactorC.Sched.C10_physical_action_in_past: propext
ReactorC.Sched.C10_physical_action_in_past_ndebug: propext
ReactorC.Sched.C10_schedule_at_tag_future: Classical.choice, Quot.sound, propext
ReactorC.Sched.C11_min_spacing: Classical.choice, Quot.sound, propext
ReactorC.Sched.C11_drop: Classical.choice, Quot.sound, propext
ReactorC.Sched.C11_replace_pending: Classical.choice, Quot.sound, propext
ReactorC.Sched.C11_defer: Classical.choice, Quot.sound, propext
ReactorC.Sched.C11_not_early: Classical.choice, Quot.sound, propext
ReactorC.Sched.C12_no_duplicate_pending_events_partial: Classical.choice, Quot.sound, propext
ReactorC.Sched.C12_physical_action_duplicate: none
ReactorC.Sched.C12_schedule_at_tag_duplicate: none
ReactorC.Runtime.C13_tags_strictly_increase: Classical.choice, Quot.sound, propext
ReactorC.Runtime.C13_event_processed_at_its_tag: Classical.choice, Quot.sound, propext
ReactorC.Runtime.C13_never_aborts: Classical.choice, Quot.sound, propext
ReactorC.Runtime.C13_event_processed_at_most_once: Classical.choice, Quot.sound, propext
ReactorC.Runtime.C13_only_queued_events_processed: Classical.choice, Quot.sound, propext
ReactorC.Runtime.C13_no_event_lost: Classical.choice, Quot.sound, propext
ReactorC.Runtime.C13_all_processed_at_end: Classical.choice, Quot.sound, propext
ReactorC.Runtime.C13_nothing_after_stop: Classical.choice, Quot.sound, propext
ReactorC.Runtime.C13_past_event_aborts: Quot.sound, propext
ReactorC.Runtime.C14_no_untriggered_reaction: Classical.choice, Quot.sound, propext
ReactorC.Runtime.C14_at_most_once_per_tag: Classical.choice, Quot.sound, propext
ReactorC.Runtime.C14_precedence_order: Classical.choice, Quot.sound, propext
ReactorC.Runtime.C14_index_order: Classical.choice, Quot.sound, propext
ReactorC.Runtime.C14_every_triggered_reaction_runs: Classical.choice, Quot.sound, propext
ReactorC.Runtime.C14_runs_twice_without_contract: Quot.sound, propext
ReactorC.Runtime.C15_fires_at_multiples: Classical.choice, Quot.sound, propext
ReactorC.Runtime.C15_no_firing_missed: Classical.choice, Quot.sound, propext
ReactorC.Runtime.C15_one_shot: Classical.choice, Quot.sound, propext
ReactorC.Runtime.C16_stop_tag_never_later: Classical.choice, Quot.sound, propext
ReactorC.Runtime.C16_request_stop_partial: Classical.choice, Quot.sound, propext
ReactorC.Runtime.C16_ends_at_stop_tag: Classical.choice, Quot.sound, propext
ReactorC.Runtime.C16_shutdown_only_at_stop: Classical.choice, Quot.sound, propext
ReactorC.Runtime.C16_shutdown_reactions_run_once: Classical.choice, Quot.sound, propext
ReactorC.Runtime.C16_request_stop_wraps: Classical.choice, Quot.sound, propext
ReactorC.Runtime.C17_check_deadline_is_exact: Quot.sound, propext
ReactorC.Runtime.C17_check_deadline_agrees: Classical.choice, Quot.sound, propext
ReactorC.Runtime.C17_not_without_deadline: Quot.sound, propext
ReactorC.Runtime.C17_not_with_deadline_zero: Quot.sound, propext
ReactorC.Runtime.C17_not_in_handlers: none
ReactorC.Runtime.C17_deadline_selection: Classical.choice, Quot.sound, propext
ReactorC.Port.C18_present_iff_set_in_current_tag: Quot.sound, propext
ReactorC.Port.C18_all_absent_at_new_tag: Quot.sound, propext
ReactorC.Port.C18_threaded: Classical.choice, Quot.sound, propext
ReactorC.Port.C19_iteration_deterministic: Quot.sound, propext
ReactorC.Port.C19_dense_iteration: Quot.sound, propext
ReactorC.Port.C19_sparse_iteration_partial: Classical.choice, Quot.sound, propext
ReactorC.Port.C19_all_and_only_present_channels: Classical.choice, Quot.sound, propext
ReactorC.Port.C19_channel_set_twice_is_visited_twice: Quot.sound, propext
ReactorC.Port.C20_no_channel_lost: Classical.choice, Quot.sound, propext
ReactorC.Port.C20_iteration_after_concurrent_sets: Classical.choice, Quot.sound, propext
ReactorC.Token.C21_no_dangling_reference_partial: Classical.choice, Quot.sound, propext
ReactorC.Token.C21_payload_unchanged: Classical.choice, Quot.sound, propext
ReactorC.Token.C21_copy_release_reads_freed_token: Classical.choice, Quot.sound, propext
ReactorC.Token.C22_writable_copy_private: Classical.choice, Quot.sound, propext
ReactorC.Sched.C23_schedule_balances_references_partial: Classical.choice, Quot.sound, propext
ReactorC.Sched.C23_conflict_after_stop_leaks: none
ReactorC.Sched.C23_replace_by_same_token_leaks: none
ReactorC.Sched.C23_schedule_at_tag_after_stop_leaks: none
ReactorC.Rti.C24_recursions_bounded: Classical.choice, Quot.sound, propext
ReactorC.Rti.C24_grants_monotone_partial: Classical.choice, Quot.sound, propext
ReactorC.Rti.C24_without_upstream_not_monotone: Quot.sound, propext
ReactorC.Rti.C25_message_after_grant_is_later: Classical.choice, Quot.sound, propext
ReactorC.Rti.C25_message_after_provisional_grant_is_not_earlier: Classical.choice, Quot.sound, propext
ReactorC.Rti.C25_provisional_grant_excludes_outside_messages: Classical.choice, Quot.sound, propext
ReactorC.Rti.C25_provisional_grant_excludes_delayed_messages_within_cycles: Classical.choice, Quot.sound, propext
ReactorC.Rti.C26_minimum_over_all_paths: Classical.choice, Quot.sound, propext
ReactorC.Rti.C26_cycle_flags: Classical.choice, Quot.sound, propext
ReactorC.Rti.C26_search_ends_and_counts: Classical.choice, Quot.sound, propext
ReactorC.Rti.C26_earliest_consequence: Classical.choice, Quot.sound, propext
ReactorC.Rti.C27_somebody_can_go_on: Classical.choice, Quot.sound, propext
ReactorC.Stop.C28_one_stop_tag: Classical.choice, Quot.sound, propext
ReactorC.Stop.C28_granted_tag_is_the_latest_proposed: Classical.choice, Quot.sound, propext
ReactorC.Stop.C28_granted_only_when_all_have_answered: Classical.choice, Quot.sound, propext
ReactorC.Stop.C28_at_most_once: Classical.choice, Quot.sound, propext
ReactorC.Stop.C28_nobody_is_past_the_stop_tag: Classical.choice, Quot.sound, propext
ReactorC.Stop.C28_all_stop_at_the_granted_tag: Classical.choice, Quot.sound, propext
ReactorC.Stop.C28_grant_arrives_in_time: Classical.choice, Quot.sound, propext
ReactorC.Stop.C28_rti_expects_nothing_later: Classical.choice, Quot.sound, propext
ReactorC.Stop.C28_everybody_gets_a_stop_tag: Classical.choice, Quot.sound, propext
ReactorC.Stop.C28_the_stop_tag_is_executed: Classical.choice, Quot.sound, propext
ReactorC.Stop.C28_barrier_is_given_back: Classical.choice, Quot.sound, propext
ReactorC.Stop.C28_barrier_is_held_until_granted: Classical.choice, Quot.sound, propext
ReactorC.Stop.C28_leaving_without_an_answer_blocks_the_stop: Classical.choice, Quot.sound, propext
ReactorC.Stop.C28_counteroffer_may_have_passed: propext
ReactorC.Stop.C28_counteroffer_is_ahead: Classical.choice, Quot.sound, propext
ReactorC.Stop.C28_last_microstep_wraps: propext
ReactorC.Start.C29_same_start_time: Classical.choice, Quot.sound, propext
ReactorC.Start.C29_start_time_after_all_have_proposed: Classical.choice, Quot.sound, propext
ReactorC.Start.C29_start_time_is_latest_plus_delay: Classical.choice, Quot.sound, propext
ReactorC.Start.C29_start_time_once_and_first: Classical.choice, Quot.sound, propext
ReactorC.Start.C29_nobody_waits_in_vain: Classical.choice, Quot.sound, propext
ReactorC.Start.C29_all_wait_for_everyone: Classical.choice, Quot.sound, propext
ReactorC.Start.C29_stop_request_may_precede_start_time: propext
ReactorC.Start.C29_clock_thread_may_read_no_start_time: none
ReactorC.Join.C30_reply_to_first_message: Classical.choice, Quot.sound, propext
ReactorC.Join.C30_any_input: Quot.sound, propext
ReactorC.Join.C30_other_messages_are_rejected: Classical.choice, Quot.sound, propext
ReactorC.Join.C30_members_are_accepted: Classical.choice, Quot.sound, propext
ReactorC.Join.C30_strangers_are_rejected_partial: Classical.choice, Quot.sound, propext
ReactorC.Join.C30_prefix_is_accepted: Classical.choice, Quot.sound, propext
ReactorC.Join.C30_each_federate_joins_once: Quot.sound, propext
ReactorC.Join.C30_no_connection_is_served_after_the_last_federate: propext
ReactorC.Join.C30_failed_join_locks_the_id: Classical.choice, Quot.sound, propext
ReactorC.Join.C30_connections_arrive: Classical.choice, Quot.sound, propext
ReactorC.Join.C30_acknowledged_federate_goes_on: none
ReactorC.Join.C30_unreachable_rti_is_an_error: none
ReactorC.Join.C30_rejected_federate_goes_on: none
ReactorC.Net.C31_int64_roundtrip: Classical.choice, Quot.sound, propext
ReactorC.Net.C31_signed_roundtrip: Classical.choice, Quot.sound, propext
ReactorC.Net.C31_uint32_roundtrip: Classical.choice, Quot.sound, propext
ReactorC.Net.C31_int32_roundtrip: Classical.choice, Quot.sound, propext
ReactorC.Net.C31_uint16_roundtrip: Classical.choice, Quot.sound, propext
ReactorC.Net.C31_little_endian: Classical.choice, Quot.sound, propext
ReactorC.Net.C31_tag_roundtrip: Classical.choice, Quot.sound, propext
ReactorC.Net.C31_header_roundtrip: Classical.choice, Quot.sound, propext
ReactorC.Net.C31_long_message_announced_wrongly: Classical.choice, Quot.sound, propext
ReactorC.Net.C31_start_time_partial: Classical.choice, Quot.sound, propext
ReactorC.Net.C31_start_time_wrong_on_big_endian_rti: Quot.sound, propext
ReactorC.Net.C32_read_success: Classical.choice, Quot.sound, propext
ReactorC.Net.C32_read_failure: Classical.choice, Quot.sound, propext
ReactorC.Net.C32_read_completes: Quot.sound, propext
ReactorC.Net.C32_write: Classical.choice, Quot.sound, propext
ReactorC.Net.C33_forwarding: Classical.choice, Quot.sound, propext
ReactorC.Net.C33_dropped_message_is_skipped: Classical.choice, Quot.sound, propext
ReactorC.Net.C33_end_to_end: Classical.choice, Quot.sound, propext
ReactorC.Vector.C34_memory_in_use_is_kept: Classical.choice, Quot.sound, propext
ReactorC.Vector.C34_memory_is_kept_at_first: Classical.choice, Quot.sound, propext
ReactorC.Vector.C34_memory_is_bounded: Quot.sound, propext
ReactorC.Vector.C34_memory_is_given_back: Quot.sound, propext
ReactorC.Vector.C34_vector_is_growable_list: Quot.sound, propext
ReactorC.Vector.C34_pop_returns_last_pushed: Quot.sound, propext
ReactorC.Vector.C34_unset_element_is_not_null: Quot.sound, propext
ReactorC.Vector.C34_capacity_zero_faults: Quot.sound, propext
ReactorC.HashSet.C35_hashset_is_set: Classical.choice, Quot.sound, propext
ReactorC.HashSet.C35_iteration_yields_members: Classical.choice, Quot.sound, propext
ReactorC.HashSet.C35_spec_membership: Classical.choice, Quot.sound, propext
ReactorC.HashSet.C35_reserved_item_matches_deleted: none
ReactorC.HashMap.C36_hashmap_is_map: Classical.choice, Quot.sound, propext
ReactorC.HashMap.C36_reads_are_values: Quot.sound, propext
ReactorC.HashMap.C36_overfull_put_faults: propext
ReactorC.Deque.C37_deque_is_list: Classical.choice, Quot.sound, propext
ReactorC.Deque.C37_no_node_leaks: Classical.choice, Quot.sound, propext
ReactorC.Deque.C37_initialized_deque_is_list: Classical.choice, Quot.sound, propext
ReactorC.MixedRadix.C38_incr_adds_one: Classical.choice, Quot.sound, propext
ReactorC.MixedRadix.C38_enumerates_all: Classical.choice, Quot.sound, propext
ReactorC.MixedRadix.C38_parent_value: Quot.sound, propext
ReactorC.MixedRadix.C38_parent_is_quotient: Quot.sound, propext
ReactorC.Clock.C39_physical_time_monotone: Quot.sound, propext
ReactorC.Clock.C39_not_before_clock: Quot.sound, propext
ReactorC.ClockSync.C40_exact_if_symmetric: Classical.choice, Quot.sound, propext
ReactorC.ClockSync.C40_error_at_most_half_round_trip: Quot.sound, propext
ReactorC.ClockSync.C40_window_correction: Quot.sound, propext
ReactorC.ClockSync.C40_average_up_to_truncation: Classical.choice, Quot.sound, propext
ReactorC.ClockSync.C40_initial_synchronisation: Classical.choice, Quot.sound, propext
ReactorC.ClockSync.C40_runtime_correction_bounded: Classical.choice, Quot.sound, propext
ReactorC.ClockSync.C40_samples_not_overrun: Classical.choice, Quot.sound, propext
ReactorC.ClockSync.C40_disturbed_exchange_discarded: Quot.sound, propext
ReactorC.ClockSync.C40_lost_probe_biases: none
ReactorC.Np.C41_triggered_reactions_execute_exactly_once: Classical.choice, Quot.sound, propext
ReactorC.Np.C41_never_twice_at_a_tag: Classical.choice, Quot.sound, propext
ReactorC.Np.C41_lower_levels_finish_first: Classical.choice, Quot.sound, propext
ReactorC.Np.C41_executing_reactions_have_one_level: Classical.choice, Quot.sound, propext
ReactorC.Np.C41_nothing_after_stop: Classical.choice, Quot.sound, propext
ReactorC.Np.C41_no_access_outside_of_arrays: Classical.choice, Quot.sound, propext
ReactorC.Np.C41_level_without_reactions_reads_outside: Quot.sound, propext
ReactorC.Np.C42_some_thread_can_step: Classical.choice, Quot.sound, propext
ReactorC.Np.C42_only_the_semaphore_blocks: Classical.choice, Quot.sound, propext
ReactorC.Np.C42_no_busy_waiting: Classical.choice, Quot.sound, propext
ReactorC.Np.C42_reactions_get_executed: Classical.choice, Quot.sound, propext
ReactorC.Np.C42_queued_means_executing: Classical.choice, Quot.sound, propext
ReactorC.Np.C42_idle_workers_are_used: Classical.choice, Quot.sound, propext
ReactorC.Gedf.C43_triggered_reactions_execute_exactly_once: Classical.choice, Quot.sound, propext
ReactorC.Gedf.C43_never_twice_at_a_tag: Classical.choice, Quot.sound, propext
ReactorC.Gedf.C43_dependencies_finish_first: Classical.choice, Quot.sound, propext
ReactorC.Gedf.C43_executing_reactions_have_one_level: Classical.choice, Quot.sound, propext
ReactorC.Gedf.C43_least_index_is_taken: Classical.choice, Quot.sound, propext
ReactorC.Gedf.C43_tag_advances_when_nothing_is_left: Classical.choice, Quot.sound, propext
ReactorC.Gedf.C43_nothing_after_stop: Classical.choice, Quot.sound, propext
ReactorC.Gedf.C43_no_race_on_the_queue: Classical.choice, Quot.sound, propext
ReactorC.Gedf.C43_some_thread_can_step: Classical.choice, Quot.sound, propext
ReactorC.Gedf.C43_no_busy_waiting: Classical.choice, Quot.sound, propext
ReactorC.Gedf.C43_reactions_get_executed: Classical.choice, Quot.sound, propext
ReactorC.Gedf.C43_idle_workers_are_used: Classical.choice, Quot.sound, propext
ReactorC.Gedf.C43_deadlines_come_before_levels: Classical.choice, Quot.sound, propext
ReactorC.Barrier.C44_tag_stays_before_outstanding: Classical.choice, Quot.sound, propext
ReactorC.Barrier.C44_message_begun_in_time_is_in_time: Classical.choice, Quot.sound, propext
ReactorC.Barrier.C44_message_begun_in_time_gets_its_tag: Classical.choice, Quot.sound, propext
ReactorC.Barrier.C44_last_release_leaves_no_barrier: Classical.choice, Quot.sound, propext
ReactorC.Barrier.C44_no_barrier_no_wait: Classical.choice, Quot.sound, propext
ReactorC.Barrier.C44_no_needless_wait: Classical.choice, Quot.sound, propext
ReactorC.Barrier.C44_nothing_is_skipped: Classical.choice, Quot.sound, propext
ReactorC.Barrier.C44_events_are_kept: propext
ReactorC.Barrier.C44_events_in_the_past_are_noticed: Classical.choice, Quot.sound, propext
ReactorC.Barrier.C44_fast_ignores_barriers: propext
ReactorC.Barrier.C44_unlocked_release_loses_a_barrier: propext
ReactorC.Level.C45_known_before_executing: Classical.choice, Quot.sound, propext
ReactorC.Level.C45_known_for_a_reason_partial: Classical.choice, Quot.sound, propext
ReactorC.Level.C45_status_never_goes_back: Classical.choice, Quot.sound, propext
ReactorC.Level.C45_last_microstep_goes_back: none
ReactorC.Level.C45_direct_messages_are_ahead: Classical.choice, Quot.sound, propext
ReactorC.Level.C45_sleeps_only_for_unknown_ports: Classical.choice, Quot.sound, propext
ReactorC.Level.C45_grant_wakes: Classical.choice, Quot.sound, propext
ReactorC.Level.C45_absent_only_after_staa: Classical.choice, Quot.sound, propext
ReactorC.Level.C45_absent_soon_after_staa: Classical.choice, Quot.sound, propext
ReactorC.Level.C45_late_notice_unblocks: propext
ReactorC.Level.C45_notice_and_timeout_claim_next_microstep: propext
ReactorC.Level.C45_start_message_claims_next_microstep: propext
ReactorC.Level.C45_level_test_is_void: Classical.choice, Quot.sound, propext
ReactorC.Modes.C46_queue_has_active_events_only: Classical.choice, Quot.sound, propext
ReactorC.Modes.C46_flag_is_activity: Classical.choice, Quot.sound, propext
ReactorC.Modes.C46_fallback_agrees: Classical.choice, Quot.sound, propext
ReactorC.Modes.C46_one_active_mode: Classical.choice, Quot.sound, propext
ReactorC.Modes.C46_transitions: Classical.choice, Quot.sound, propext
ReactorC.Modes.C47_leaving_suspends: Classical.choice, Quot.sound, propext
ReactorC.Modes.C47_suspended_until_entered: Classical.choice, Quot.sound, propext
ReactorC.Modes.C47_history_keeps_remaining_delay_partial: Classical.choice, Quot.sound, propext
ReactorC.Modes.C47_reset_discards_events_partial: Classical.choice, Quot.sound, propext
ReactorC.Modes.C47_one_pending_event_per_timer: Classical.choice, Quot.sound, propext
ReactorC.Modes.C47_reset_restarts_timers_partial: Classical.choice, Quot.sound, propext
ReactorC.Modes.C47_reset_starts_one_shot_timers_partial: Classical.choice, Quot.sound, propext
ReactorC.Modes.C47_variables_are_reset: Classical.choice, Quot.sound, propext
ReactorC.Modes.C47_nested_history_forgets_events: none
ReactorC.Modes.C47_nested_event_lost: none
ReactorC.Modes.C47_self_reset_keeps_events: none
ReactorC.Modes.C47_one_shot_timer_fires_twice: none
ReactorC.Modes.C47_resumed_events_collide: none
ReactorC.Modes.C47_timer_beyond_stop_is_not_restarted: none
ReactorC.Semaphore.C48_acquires_bounded: Classical.choice, Quot.sound, propext
ReactorC.Semaphore.C48_count_exact: Classical.choice, Quot.sound, propext
ReactorC.Semaphore.C48_never_negative: Classical.choice, Quot.sound, propext
ReactorC.Semaphore.C48_no_lost_wakeup: Classical.choice, Quot.sound, propext
ReactorC.Semaphore.C48_acquire_proceeds: Classical.choice, Quot.sound, propext
ReactorC.Semaphore.C48_wait_proceeds: Classical.choice, Quot.sound, propext
ReactorC.Semaphore.C48_mutex_released: Classical.choice, Quot.sound, propext
ReactorC.Trace.C49_nothing_lost: Classical.choice, Quot.sound, propext
ReactorC.Trace.C49_complete_after_stop: Classical.choice, Quot.sound, propext
ReactorC.Trace.C49_no_overrun: Classical.choice, Quot.sound, propext
ReactorC.Trace.C49_chunks: Classical.choice, Quot.sound, propext
ReactorC.Trace.C49_overrun_without_file: propext
ReactorC.Trace.C49_overrun_without_file_reachable: Quot.sound, propext
ReactorC.Trace.C49_thread_identifier_test_off_by_one: Quot.sound, propext
ReactorC.Trace.C49_object_table: Quot.sound, propext
ReactorC.Watchdog.C50_decisions_hold_partial: Quot.sound, propext
ReactorC.Watchdog.C50_not_excluding_late_handlers: propext
ReactorC.Watchdog.C50_not_started_by_late_handlers: propext
ReactorC.Watchdog.C50_not_stopped_by_late_handlers: propext
ReactorC.Watchdog.C50_handler_only_when_due_partial: Quot.sound, propext
ReactorC.Watchdog.C50_handler_excludes_reactions_partial: Quot.sound, propext
ReactorC.Watchdog.C50_start_not_missed: Quot.sound, propext
ReactorC.Watchdog.C50_start_in_handler_is_lost: propext
ReactorC.Watchdog.C50_shorter_restart_is_late: propext
ReactorC.Watchdog.C50_wakes_in_time_if_extending: Quot.sound, propext
ReactorC.Fed.C51_reported_time_is_honest: Classical.choice, Quot.sound, propext
ReactorC.Fed.C51_reported_tag_is_honest_partial: Classical.choice, Quot.sound, propext
ReactorC.Fed.C51_reported_microstep_can_be_too_late: Quot.sound, propext
ReactorC.Index.C52_order: Classical.choice, Quot.sound, propext
ReactorC.Index.C52_smaller_deadline_first: Classical.choice, Quot.sound, propext
ReactorC.Index.C52_level_recovered: Classical.choice, Quot.sound, propext
ReactorC.Index.C52_fits: Quot.sound, propext
ReactorC.Index.C52_level_limit: propext
ReactorC.Recycle.C53_not_aliased: Classical.choice, Quot.sound, propext
ReactorC.Recycle.C53_cleared: Classical.choice, Quot.sound, propext
ReactorC.Recycle.C53_others_unchanged: Classical.choice, Quot.sound, propext
ReactorC.Recycle.C53_every_event_in_one_place: Classical.choice, Quot.sound, propext
ReactorC.Print.C54_comma_separated: Classical.choice, Quot.sound, propext
ReactorC.Print.C54_comma_separated_negative_undefined: Quot.sound, propext
ReactorC.Print.C54_readable: Classical.choice, Quot.sound, propext
ReactorC.Encl.C55_returned_tags_are_granted: Classical.choice, Quot.sound, propext
ReactorC.Encl.C55_message_after_return_is_later_partial: Classical.choice, Quot.sound, propext
ReactorC.Encl.C55_without_upstream_returns_at_once: Classical.choice, Quot.sound, propext
ReactorC.Encl.C55_somebody_returns: Classical.choice, Quot.sound, propext
ReactorC.Encl.C55_single_enclave: propext
ReactorC.Encl.C55_race_breaks_the_promise: Quot.sound, propext
ReactorC.Encl.C55_shutdown_of_a_starving_enclave_breaks_the_promise: Quot.sound, propext
ReactorC.Encl.C55_idle_cycle_waits_forever: Classical.choice, Quot.sound, propext
ReactorC.Args.C56_reads_within_argv: Classical.choice, Quot.sound, propext
ReactorC.Args.C56_accepts_exactly: Classical.choice, Quot.sound, propext
ReactorC.Args.C56_rejects_the_rest: Classical.choice, Quot.sound, propext
ReactorC.Args.C56_decimal_numerals: propext
ReactorC.Args.C56_usage_lists_options_that_are_rejected: Classical.choice, Quot.sound, propext
ReactorC.Token.C57_no_leak_partial: Classical.choice, Quot.sound, propext
ReactorC.Token.C57_all_released: Classical.choice, Quot.sound, propext
ReactorC.Token.C57_second_scheduled_value_leaks: Quot.sound, propext
ReactorC.Token.C57_set_on_shared_message_leaks: Quot.sound, propext
ReactorC.Fed.C58_advances_within_grant: Classical.choice, Quot.sound, propext
ReactorC.Modes.C59_nested_history_skips_startup: none
ReactorC.Modes.C59_startup_at_most_once: Classical.choice, Quot.sound, propext
ReactorC.Modes.C59_startup_only_if_active: Classical.choice, Quot.sound, propext
ReactorC.Modes.C59_startup_when_active_partial: Classical.choice, Quot.sound, propext
ReactorC.Modes.C59_shutdown_iff_started: Classical.choice, Quot.sound, propext
ReactorC.Modes.C59_reset_iff_entered_by_reset: Classical.choice, Quot.sound, propext
ReactorC.Fedn.C60_federates_keep_the_protocol_partial: Classical.choice, Quot.sound, propext
ReactorC.Fedn.C60_promises_are_kept_partial: Classical.choice, Quot.sound, propext
ReactorC.Fedn.C60_messages_in_time_partial: Classical.choice, Quot.sound, propext
ReactorC.Fedn.C60_messages_in_time_without_cycles_partial: Classical.choice, Quot.sound, propext
ReactorC.Fedn.C60_never_tardy_partial: Classical.choice, Quot.sound, propext
ReactorC.Fedn.C60_no_rejected_grant_partial: Classical.choice, Quot.sound, propext
ReactorC.Fedn.C60_reached_was_granted_partial: Classical.choice, Quot.sound, propext
ReactorC.Fedn.C60_reached_within_stop_partial: Classical.choice, Quot.sound, propext
ReactorC.Fedn.C60_no_message_after_timeout_partial: Classical.choice, Quot.sound, propext
ReactorC.Fedn.C60_message_at_provisional_tag: Quot.sound, propext
ReactorC.Fedn.C60_fails_by_early_wakeup: Quot.sound, propext
ReactorC.Fedn.C60_fails_by_requested_stop: Quot.sound, propext
ReactorC.Fedn.C60_fails_by_tie: Quot.sound, propext
ReactorC.Fedn.C60_late_message_has_bad_index: Quot.sound, propext
ReactorC.Adaptive.C61_experiments_are_rare: Classical.choice, Quot.sound, propext
ReactorC.Adaptive.C61_fastest_number_between_experiments: Classical.choice, Quot.sound, propext
ReactorC.Adaptive.C61_what_becomes_the_fastest: Classical.choice, Quot.sound, propext
ReactorC.Adaptive.C61_fastest_is_brought_up_to_date: Classical.choice, Quot.sound, propext
ReactorC.Adaptive.C61_measurements_stay_in_bounds: Classical.choice, Quot.sound, propext
ReactorC.Adaptive.C61_end_of_tag_suggests_numbers_in_range: Classical.choice, Quot.sound, propext
ReactorC.Adaptive.C61_few_tags_are_measured: Classical.choice, Quot.sound, propext
ReactorC.Adaptive.C61_triggered_reactions_execute_exactly_once_partial: Classical.choice, Quot.sound, propext
ReactorC.Adaptive.C61_never_twice_at_a_tag: Classical.choice, Quot.sound, propext
ReactorC.Adaptive.C61_lower_levels_finish_first_partial: Classical.choice, Quot.sound, propext
ReactorC.Adaptive.C61_executing_reactions_have_one_level: Classical.choice, Quot.sound, propext
ReactorC.Adaptive.C61_nothing_after_stop: Classical.choice, Quot.sound, propext
ReactorC.Adaptive.C61_no_access_outside_of_arrays: Classical.choice, Quot.sound, propext
ReactorC.Adaptive.C61_workers_per_level_in_range: Classical.choice, Quot.sound, propext
ReactorC.Adaptive.C61_tag_advances_with_the_mutex: Classical.choice, Quot.sound, propext
ReactorC.Adaptive.C61_only_one_advances: Classical.choice, Quot.sound, propext
ReactorC.Adaptive.C61_single_worker_never_aborts: Classical.choice, Quot.sound, propext
ReactorC.Adaptive.C61_some_thread_can_step: Classical.choice, Quot.sound, propext
ReactorC.Adaptive.C61_progress_stays_possible_partial: Classical.choice, Quot.sound, propext
ReactorC.Adaptive.C61_wakeup_without_cause_ends_the_tag_early: Quot.sound, propext
ReactorC.Adaptive.C61_two_workers_can_abort: Quot.sound, propext
ReactorC.Adaptive.C61_level_without_reactions_aborts: Quot.sound, propext
ReactorC.Adaptive.C61_fast_advances_without_the_mutex: Quot.sound, propext
ReactorC.Adaptive.C61_two_workers_can_keep_each_other_busy: Quot.sound, propext
ReactorC.Det.C62_results_do_not_depend_on_the_schedule: Classical.choice, Quot.sound, propext
ReactorC.Det.C62_nonpreemptive_scheduler_is_deterministic: Classical.choice, Quot.sound, propext
ReactorC.Det.C62_deadline_scheduler_is_deterministic: Classical.choice, Quot.sound, propext
ReactorC.Det.C62_adaptive_scheduler_is_deterministic: Classical.choice, Quot.sound, propext
ReactorC.Det.C62_runtime_without_threads_is_deterministic: Classical.choice, Quot.sound, propext
ReactorC.Det.C62_two_executions_agree: Classical.choice, Quot.sound, propext
ReactorC.Det.C62_threads_do_not_change_the_results: Classical.choice, Quot.sound, propext
ReactorC.Det.C62_no_data_races: Classical.choice, Quot.sound, propext
ReactorC.Det.C62_without_order_the_schedule_matters: Classical.choice, Quot.sound, propext
ReactorC.Trace.File.C63_file_cut_off: Classical.choice, Quot.sound, propext
ReactorC.Trace.File.C63_trace_file_reads_back: Classical.choice, Quot.sound, propext
ReactorC.Trace.File.C63_tools_read_what_programs_trace: Classical.choice, Quot.sound, propext
ReactorC.Trace.File.C63_every_tracepoint_is_read: Classical.choice, Quot.sound, propext
ReactorC.Trace.File.C63_lookup: Quot.sound, propext
ReactorC.Trace.File.C63_trigger_lookup: Quot.sound, propext
ReactorC.Trace.File.C63_no_record_no_header: Quot.sound, propext
ReactorC.Trace.File.C63_objects_registered_late_are_missing: propext
ReactorC.Trace.File.C63_lookup_without_success_gives_the_first_index: propext
ReactorC.Trace.File.C63_other_layouts_are_garbled: propext
ReactorC.Trace.File.C63_big_endian_reads_nothing: Quot.sound, propext
ReactorC.Trace.File.C63_long_descriptions_garble: propext
ReactorC.Trace.File.C63_negative_length_overruns: propext
ReactorC.Platform.C64_nrf52_reads_the_time_partial: Classical.choice, Quot.sound, propext
ReactorC.Platform.C64_nrf52_goes_back_in_critical_sections: Classical.choice, Quot.sound, propext
ReactorC.Platform.C64_arduino_reads_the_time_partial: Quot.sound, propext
ReactorC.Platform.C64_arduino_goes_back_every_71_minutes: propext
ReactorC.Platform.C64_zephyr_counter_never_goes_back: Quot.sound, propext
ReactorC.Platform.C64_zephyr_counter_reads_the_time_partial: Classical.choice, Quot.sound, propext
ReactorC.Platform.C64_zephyr_counter_jumps_ahead: Classical.choice, Quot.sound, propext
ReactorC.Platform.C64_zephyr_counter_then_stands_still: Quot.sound, propext
ReactorC.Platform.C64_zephyr_kernel_clock: Quot.sound, propext
ReactorC.Platform.C64_zephyr_kernel_clock_runs_slow: none
ReactorC.Platform.Irq.C65_rp2040_critical_sections: Classical.choice, Quot.sound, propext
ReactorC.Platform.Irq.C65_zephyr_critical_sections_partial: Classical.choice, Quot.sound, propext
ReactorC.Platform.Irq.C65_nrf52_critical_sections_partial: Classical.choice, Quot.sound, propext
ReactorC.Platform.Irq.C65_zephyr_nested_interrupts_lose_updates: Quot.sound, propext
ReactorC.Platform.Irq.C65_zephyr_threads_lose_updates: Quot.sound, propext
ReactorC.Platform.Irq.C65_nrf52_nested_sections_lose_updates: Quot.sound, propext
ReactorC.Platform.Irq.C65_arduino_is_the_wrong_way_round: Quot.sound, propext
ReactorC.Platform.Irq.C65_rp2040_cores_lose_updates: Quot.sound, propext
ReactorC.Platform.C66_priorities_are_mapped_in_order: Classical.choice, Quot.sound, propext
ReactorC.Platform.C66_other_priorities_are_rejected: none
ReactorC.Platform.C66_times_are_converted: Classical.choice, Quot.sound, propext
ReactorC.Platform.C66_times_are_converted_back: Quot.sound, propext
ReactorC.Platform.C66_negative_times_are_invalid: Classical.choice, Quot.sound, propext
ReactorC.Platform.Pico.C67_no_wakeup_is_lost: Quot.sound, propext
ReactorC.Platform.Pico.C67_the_mutex_is_released: Quot.sound, propext
ReactorC.Platform.Pico.C67_the_mutex_is_locked_again: Quot.sound, propext
ReactorC.Platform.Pico.C67_timed_wait_keeps_the_mutex: Quot.sound, propext
ReactorC.Platform.Pico.C67_no_wakeup_without_notification: Classical.choice, Quot.sound, propext
ReactorC.Decentral.C68_processed_at_its_tag: Classical.choice, Quot.sound, propext
ReactorC.Decentral.C68_none_lost: Classical.choice, Quot.sound, propext
ReactorC.Decentral.C68_in_order: Classical.choice, Quot.sound, propext
ReactorC.Decentral.C68_waits_for_the_payload: Classical.choice, Quot.sound, propext
ReactorC.Decentral.C68_waits_at_most_sta: Classical.choice, Quot.sound, propext
ReactorC.Decentral.C68_no_wait_if_known: Classical.choice, Quot.sound, propext
ReactorC.Decentral.C68_start_message_makes_the_next_one_late: Quot.sound, propext
ReactorC.Decentral.C68_last_ten_microseconds: Quot.sound, propext
ReactorC.Decentral.C68_slow_payload_is_late: Quot.sound, propext
ReactorC.Decentral.C69_never_early_and_tardy_if_late: Classical.choice, Quot.sound, propext
ReactorC.Decentral.C69_no_advance_while_reading: Classical.choice, Quot.sound, propext
ReactorC.Decentral.C69_none_lost_before_stop_partial: Classical.choice, Quot.sound, propext
ReactorC.Decentral.C69_in_order_partial: Classical.choice, Quot.sound, propext
ReactorC.Decentral.C69_delay_is_least_partial: Classical.choice, Quot.sound, propext
ReactorC.Decentral.C69_message_overwritten: Quot.sound, propext
ReactorC.Tardiness.C70_invoked_as_due_partial: Classical.choice, Quot.sound, propext
ReactorC.Tardiness.C70_all_invoked_partial: Classical.choice, Quot.sound, propext
ReactorC.Tardiness.C70_no_tardy_message_no_handler: Quot.sound, propext
ReactorC.Tardiness.C70_second_message_hides_tardiness: Quot.sound, propext
ReactorC.Tardiness.C70_order_decides: Quot.sound, propext
ReactorC.Tardiness.C70_chain_passes_on_what_is_handled: Quot.sound, propext
ReactorC.Tardiness.C70_missed_deadline_leaves_the_mark: Quot.sound, propext
ReactorC.FedDet.C71_results_do_not_depend_on_timing_partial: Classical.choice, Quot.sound, propext
ReactorC.FedDet.C71_same_up_to_a_tag_partial: Classical.choice, Quot.sound, propext
ReactorC.FedDet.C71_same_results_at_the_end_partial: Classical.choice, Quot.sound, propext
ReactorC.FedDet.C71_federation_computes_the_program_partial: Classical.choice, Quot.sound, propext
ReactorC.FedDet.C71_federation_computes_all_partial: Classical.choice, Quot.sound, propext
ReactorC.FedDet.C71_sequential_execution_is_deterministic: Classical.choice, Quot.sound, propext
ReactorC.FedDet.C71_no_input_is_late_partial: Classical.choice, Quot.sound, propext
ReactorC.FedDet.C72_not_stuck_partial: Classical.choice, Quot.sound, propext
ReactorC.FedDet.C72_does_not_work_for_ever_partial: Classical.choice, Quot.sound, propext
ReactorC.FedDet.C72_every_fair_execution_ends_partial: Classical.choice, Quot.sound, propext
ReactorC.FedDet.C72_the_end_can_be_reached_partial: Classical.choice, Quot.sound, propext
ReactorC.FedDet.C72_nothing_is_left_at_the_end_partial: Classical.choice, Quot.sound, propext
ReactorC.FedDet.C72_no_two_events_for_one_trigger_partial: Classical.choice, Quot.sound, propext
ReactorC.Fedn.C72_granted_the_end_of_time_holds_back_downstream: Classical.choice, Quot.sound, propext
ReactorC.Fedn.C72_starves_when_upstream_has_resigned: Classical.choice, Quot.sound, propext
ReactorC.Token.Threads.C73_safe_if_threads_are_apart_partial: Classical.choice, Quot.sound, propext
ReactorC.Token.Threads.C73_safe_without_forwarding_partial: Classical.choice, Quot.sound, propext
ReactorC.Token.Threads.C73_safe_with_one_thread_partial: Classical.choice, Quot.sound, propext
ReactorC.Token.Threads.C73_parallel_forwarding_loses_a_message: Quot.sound, propext
ReactorC.Token.Threads.C73_parallel_release_frees_twice: Quot.sound, propext
ReactorC.Auth.C74_accepted_if_answered_by_a_member_partial: Classical.choice, Quot.sound, propext
ReactorC.Auth.C74_each_answer_is_accepted_once: Quot.sound, propext
ReactorC.Auth.C74_each_id_joins_once: Quot.sound, propext
ReactorC.Auth.C74_federate_goes_on_if_answered_by_the_rti: Classical.choice, Quot.sound, propext
ReactorC.Auth.C74_each_random_number_is_answered_once: Quot.sound, propext
ReactorC.Auth.C74_members_are_accepted: Quot.sound, propext
ReactorC.Auth.C74_anybody_can_end_the_rti: Quot.sound, propext
ReactorC.Auth.C74_eavesdropper_is_accepted: Quot.sound, propext
ReactorC.Auth.C74_accepted_under_another_id: Quot.sound, propext
ReactorC.Auth.C74_stranger_joins_with_empty_federation_id: Quot.sound, propext
ReactorC.Join.P2p.C75_members_are_accepted: Classical.choice, Quot.sound, propext
ReactorC.Join.P2p.C75_strangers_are_rejected_partial: Classical.choice, Quot.sound, propext
ReactorC.Join.P2p.C75_others_are_rejected: Classical.choice, Quot.sound, propext
ReactorC.Join.P2p.C75_longer_federation_id_is_accepted: Classical.choice, Quot.sound, propext
ReactorC.Join.P2p.C75_shorter_federation_id_is_read_beyond_its_end: Classical.choice, Quot.sound, propext
ReactorC.Join.P2p.C75_id_out_of_range_is_written_beyond_the_end: Classical.choice, Quot.sound, propext
ReactorC.Join.P2p.C75_all_members_are_connected_partial: Quot.sound, propext
ReactorC.Join.P2p.C75_second_connection_takes_the_place_of_another_federate: Classical.choice, Quot.sound, propext
ReactorC.Join.P2p.C75_port_is_an_advertised_one: propext
ReactorC.Join.P2p.C75_advertised_port_is_found: propext
ReactorC.Join.P2p.C75_rejected_federate_tries_without_end: none
ReactorC.Join.P2p.C75_unconnected_socket_is_recorded: none
ReactorC.Join.P2p.C75_acknowledged_federate_is_connected: none
ReactorC.DecFed.C76_ended_when_the_time_has_passed_partial: Classical.choice, Quot.sound, propext
ReactorC.DecFed.C76_the_end_can_be_reached_partial: Classical.choice, Quot.sound, propext
ReactorC.DecFed.C76_the_end_can_be_reached_from_the_start_partial: Classical.choice, Quot.sound, propext
ReactorC.DecFed.C76_no_message_is_tardy_partial: Classical.choice, Quot.sound, propext
ReactorC.DecFed.C76_every_message_arrives_partial: Classical.choice, Quot.sound, propext
ReactorC.DecFed.C76_results_do_not_depend_on_timing_partial: Classical.choice, Quot.sound, propext
ReactorC.DecFed.C76_same_up_to_a_tag_partial: Classical.choice, Quot.sound, propext
ReactorC.DecFed.C76_federation_computes_the_program_partial: Classical.choice, Quot.sound, propext
ReactorC.DecFed.C76_federation_computes_all_partial: Classical.choice, Quot.sound, propext
ReactorC.DecFed.C76_same_as_with_the_RTI_partial: Classical.choice, Quot.sound, propext
ReactorC.DecFed.C76_fails_if_offsets_do_not_cover: Quot.sound, propext
ReactorC.Platform.Sleep.C77_patmos_sleep: Classical.choice, Quot.sound, propext
ReactorC.Platform.Sleep.C77_arduino_sleeps_without_interrupts: Classical.choice, Quot.sound, propext
ReactorC.Platform.Sleep.C77_arduino_misses_event: none
ReactorC.Platform.Sleep.C77_zephyr_kernel_sleep: Classical.choice, Quot.sound, propext
ReactorC.Platform.Sleep.C77_zephyr_counter_sleep_partial: Classical.choice, Quot.sound, propext
ReactorC.Platform.Sleep.C77_zephyr_counter_ends_early: none
ReactorC.Platform.Sleep.C77_rp2040_sleep_partial: Classical.choice, Quot.sound, propext
ReactorC.Platform.Sleep.C77_rp2040_passes_an_event: none
ReactorC.Platform.Sleep.C77_flexpret_misses_event: none
ReactorC.Platform.Sleep.C77_flexpret_sleeps_on: propext
ReactorC.Platform.Sleep.C77_nrf52_sleep_partial: Classical.choice, Quot.sound, propext
ReactorC.Platform.Sleep.C77_nrf52_sleeps_too_long: Classical.choice, Quot.sound, propext
ReactorC.ClockSync.Udp.C78_only_exchanges_with_equal_delays_count: Classical.choice, Quot.sound, propext
ReactorC.ClockSync.Udp.C78_exchanges_are_real_partial: Classical.choice, Quot.sound, propext
ReactorC.ClockSync.Udp.C78_clock_error_bounded_partial: Classical.choice, Quot.sound, propext
ReactorC.ClockSync.Udp.C78_initial_synchronization: Classical.choice, Quot.sound, propext
ReactorC.ClockSync.Udp.C78_no_stale_replies: Classical.choice, Quot.sound, propext
ReactorC.ClockSync.Udp.C78_lost_T1_ends_synchronization: Classical.choice, Quot.sound, propext
ReactorC.ClockSync.Udp.C78_lost_T3_ends_synchronization: Classical.choice, Quot.sound, propext
ReactorC.ClockSync.Udp.C78_lost_probe_ends_synchronization: Classical.choice, Quot.sound, propext
ReactorC.ClockSync.Udp.C78_duplicates_spoil_the_clock: Quot.sound, propext
Verif.RtiAddr.C79_the_search_is_leftmost_and_longest: Classical.choice, Quot.sound, propext
Verif.RtiAddr.C79_an_address_is_stored_as_written_partial: Classical.choice, Quot.sound, propext
Verif.RtiAddr.C79_the_federate_connects_where_it_is_told_partial: Classical.choice, Quot.sound, propext
Verif.RtiAddr.C79_characters: Classical.choice, Quot.sound, propext
Verif.RtiAddr.C79_a_text_is_unreadable_when_nothing_of_it_can_be_a_host: Classical.choice, Quot.sound, propext
Verif.RtiAddr.C79_an_accepted_text_contains_the_address_that_is_stored: Classical.choice, Quot.sound, propext
Verif.RtiAddr.C79_the_parts_fit_into_their_buffers: Classical.choice, Quot.sound, propext
Verif.RtiAddr.C79_not_what_follows_is_ignored: Classical.choice, Quot.sound, propext
Verif.RtiAddr.C79_not_what_precedes_is_ignored: Classical.choice, Quot.sound, propext
Verif.RtiAddr.C79_not_long_ports_are_cut: Classical.choice, Quot.sound, propext
Verif.RtiAddr.C79_not_high_ports_are_used: Classical.choice, Quot.sound, propext
Verif.RtiAddr.C79_not_hosts_are_checked: Classical.choice, Quot.sound, propext
Verif.RtiAddr.C79_not_only_addresses_are_accepted: Classical.choice, Quot.sound, propext
Verif.Memory.C80_proper_use_is_safe: Classical.choice, Quot.sound, propext
Verif.Memory.C80_termination_frees_all_but_the_leaks_partial: Classical.choice, Quot.sound, propext
Verif.Memory.C80_programs_without_leaks_free_all_memory: Classical.choice, Quot.sound, propext
Verif.Memory.C80_termination_runs_once: propext
Verif.Memory.C80_abnormal_termination_frees_nothing: Quot.sound
Verif.Memory.C80_not_events_are_freed: Classical.choice, Quot.sound, propext
Verif.Memory.C80_not_events_are_freed_earlier: Quot.sound, propext
Verif.Memory.C80_not_watchdogs_are_freed: Classical.choice, Quot.sound, propext
Verif.Memory.C80_not_safe_with_two_watchdogs_in_a_reactor: Quot.sound, propext
Verif.Memory.C80_not_safe_whenever_two_watchdogs_share_a_reactor: Classical.choice, Quot.sound, propext
Verif.Memory.C80_not_safe_when_new_reactors_are_freed_early: propext
ReactorC.Async.C81_no_tag_begins_before_its_time: Classical.choice, Quot.sound, propext
ReactorC.Async.C81_events_are_processed_in_order_and_once: Classical.choice, Quot.sound, propext
ReactorC.Async.C81_no_event_is_lost: Classical.choice, Quot.sound, propext
ReactorC.Async.C81_events_up_to_the_stop_tag_are_accepted: Classical.choice, Quot.sound, propext
ReactorC.Async.C81_wakeups_are_not_lost: Classical.choice, Quot.sound, propext
ReactorC.Async.C81_due_events_are_begun: Classical.choice, Quot.sound, propext
ReactorC.Async.C81_shutdown_at_most_once: Classical.choice, Quot.sound, propext
ReactorC.Async.C81_ends_at_the_stop_tag_after_shutdown_partial: Classical.choice, Quot.sound, propext
ReactorC.Async.C81_stop_requests_end_the_program_partial: Classical.choice, Quot.sound, propext
ReactorC.Async.C81_not_shutdown_when_another_thread_stops: Classical.choice, Quot.sound, propext
ReactorC.Async.C81_not_shutdown_with_enclaves: Classical.choice, Quot.sound, propext
ReactorC.Async.C81_not_all_enclaves_are_woken: Classical.choice, Quot.sound, propext
ReactorC.Async.C81_not_kept_alive_when_fast: Classical.choice, Quot.sound, propext
ReactorC.Rti.C82_departed_federates_block_nobody_partial: Classical.choice, Quot.sound, propext
ReactorC.Rti.C82_not_crashed_federates_block_nobody: Classical.choice, Quot.sound, propext
ReactorC.Leave.C82_messages_of_the_rti_are_understood: Classical.choice, Quot.sound, propext
ReactorC.Leave.C82_what_arrives_completely_is_handled: Classical.choice, Quot.sound, propext
ReactorC.Leave.C82_unknown_messages_end_the_federate: Classical.choice, Quot.sound, propext
ReactorC.Leave.C82_every_crash_point: Classical.choice, Quot.sound, propext
ReactorC.Leave.C82_farewells_are_understood: Classical.choice, Quot.sound, propext
ReactorC.Leave.C82_the_rti_ends: Classical.choice, Quot.sound, propext
ReactorC.Leave.C82_reported_failures_reach_the_exit_code_partial: Classical.choice, Quot.sound, propext
ReactorC.Leave.C82_exit_code_zero: Classical.choice, Quot.sound, propext
ReactorC.Leave.C82_crash_within_a_message_ends_the_federation: Classical.choice, Quot.sound, propext
ReactorC.Leave.C82_told_only_at_an_abnormal_end: Classical.choice, Quot.sound, propext
ReactorC.Leave.C82_noticed_crashes_end_nobody: propext
ReactorC.Leave.C82_not_crashes_reach_the_exit_code: propext
ReactorC.Leave.C82_not_messages_to_crashed_federates_are_dropped: propext
ReactorC.Leave.C82_federates_that_are_told_end: Classical.choice, Quot.sound, propext
ReactorC.Leave.C82_not_federates_end_without_the_rti: Classical.choice, Quot.sound, propext
ReactorC.Python.C83_no_freed_object_is_used_partial: Classical.choice, Quot.sound, propext
ReactorC.Python.C83_reference_counts_partial: Classical.choice, Quot.sound, propext
ReactorC.Python.C83_freed_when_unused_partial: Classical.choice, Quot.sound, propext
ReactorC.Python.C83_reads_what_was_set_partial: Classical.choice, Quot.sound, propext
ReactorC.Python.C83_present_if_set_now: Classical.choice, Quot.sound, propext
ReactorC.Python.C83_index: Classical.choice, Quot.sound, propext
ReactorC.Python.C83_iteration_visits_all_channels: Quot.sound, propext
ReactorC.Python.C83_scheduled_values_are_alive_partial: Classical.choice, Quot.sound, propext
ReactorC.Python.C83_not_second_port_object_is_up_to_date: Quot.sound, propext
ReactorC.Python.C83_not_stored_port_objects_are_valid: Quot.sound, propext
ReactorC.Python.C83_not_index_of_a_single_port: Quot.sound, propext
ReactorC.Python.C83_not_arguments_may_be_released: Quot.sound, propext
ReactorC.Python.C83_not_indices_are_checked: Quot.sound, propext
ReactorC.Python.C83_not_absent_ports_are_none: Quot.sound, propext
ReactorC.Python.C83_not_empty_multiports_can_be_iterated: propext
ReactorC.Python.C83_not_nested_loops_end: Quot.sound, propext
ReactorC.Python.C83_not_scheduled_values_are_freed: Classical.choice, Quot.sound, propext
ReactorC.Python.C84_tag_has_its_arguments_partial: Classical.choice, Quot.sound, propext
ReactorC.Python.C84_times_are_checked: Quot.sound, propext
ReactorC.Python.C84_operators_compare_logical_time_partial: Classical.choice, Quot.sound, propext
ReactorC.Python.C84_texts_are_different: Classical.choice, Quot.sound, propext
ReactorC.Python.C84_arrival_times_partial: propext
ReactorC.Python.C84_not_microsteps_are_checked: propext
ReactorC.Python.C84_not_negative_microsteps_are_rejected: propext
ReactorC.Python.C84_not_microsteps_on_big_endian: Classical.choice, Quot.sound, propext
ReactorC.Python.C84_not_arrival_times: Quot.sound, propext
ReactorC.Cycle.C85_no_message_too_late_partial: Classical.choice, Quot.sound, propext
ReactorC.Cycle.C85_results_of_the_program_partial: Classical.choice, Quot.sound, propext
ReactorC.Cycle.C85_executions_agree: Classical.choice, Quot.sound, propext
ReactorC.Cycle.C85_no_deadlock: Classical.choice, Quot.sound, propext
ReactorC.Cycle.C85_terminates: Classical.choice, Quot.sound, propext
ReactorC.Cycle.C85_completes_partial: Classical.choice, Quot.sound, propext
ReactorC.Cycle.C85_one_result: Classical.choice, Quot.sound, propext
ReactorC.Cycle.C85_loops_never_complete: Classical.choice, Quot.sound, propext
ReactorC.Cycle.C85_not_without_order: Classical.choice, Quot.sound, propext
ReactorC.Rti.C85_not_delayed_messages_between_cycles: Quot.sound, propext
ReactorC.Cycle.Run.C86_not_with_delays_between_cycles: Quot.sound, propext
ReactorC.Cycle.Run.C86_fair_executions_complete_partial: Classical.choice, Quot.sound, propext
ReactorC.Cycle.Run.C86_fair_executions_exist_partial: Classical.choice, Quot.sound, propext
ReactorC.Cycle.Run.C86_fair_executions_have_the_inputs_partial: Classical.choice, Quot.sound, propext
ReactorC.Cycle.Run.C86_fair_executions_have_the_states_partial: Classical.choice, Quot.sound, propext
ReactorC.Cycle.Run.C86_no_message_too_late_partial: Classical.choice, Quot.sound, propext
ReactorC.Cycle.Run.C86_results_of_the_program_partial: Classical.choice, Quot.sound, propext
ReactorC.Cycle.Run.C86_completes_partial: Classical.choice, Quot.sound, propext
ReactorC.Cycle.Run.C86_no_deadlock_partial: Classical.choice, Quot.sound, propext
ReactorC.Cycle.Run.C86_one_result_partial: Classical.choice, Quot.sound, propext
ReactorC.Cycle.Run.C86_executions_agree_partial: Classical.choice, Quot.sound, propext
ReactorC.RtiArgs.C87_options_are_understood_partial: Classical.choice, Quot.sound, propext
ReactorC.RtiArgs.C87_unknown_words_are_refused: Classical.choice, Quot.sound, propext
ReactorC.RtiArgs.C87_bad_arguments_are_refused: Classical.choice, Quot.sound, propext
ReactorC.RtiArgs.C87_accepted_settings: Classical.choice, Quot.sound, propext
ReactorC.RtiArgs.C87_not_options_after_clock_sync: Classical.choice, Quot.sound, propext
ReactorC.RtiArgs.C87_not_in_any_order: Classical.choice, Quot.sound, propext
ReactorC.RtiArgs.C87_not_large_numbers_are_refused: Classical.choice, Quot.sound, propext
ReactorC.RtiArgs.C87_not_nonsense_is_refused: Classical.choice, Quot.sound, propext
ReactorC.RtiArgs.C87_defaults_partial: Classical.choice, Quot.sound, propext
ReactorC.RtiArgs.C87_period_not_as_documented: Classical.choice, Quot.sound, propext
ReactorC.RtiArgs.C87_period_only_with_on: Classical.choice, Quot.sound, propext
ReactorC.TraceSum.C88_events_are_counted_partial: Classical.choice, Quot.sound, propext
ReactorC.TraceSum.C88_reaction_statistics_partial: Classical.choice, Quot.sound, propext
ReactorC.TraceSum.C88_schedule_calls_are_counted_partial: Classical.choice, Quot.sound, propext
ReactorC.TraceSum.C88_user_events_partial: Classical.choice, Quot.sound, propext
ReactorC.TraceSum.C88_worker_statistics_partial: Classical.choice, Quot.sound, propext
ReactorC.TraceSum.C88_not_safe_when_time_advances: Quot.sound, propext
ReactorC.TraceSum.C88_not_safe_with_many_workers: Classical.choice, Quot.sound, propext
ReactorC.TraceSum.C88_shortest_not_zero: Quot.sound, propext
ReactorC.TraceSum.C88_greatest_not_negative: Quot.sound, propext
ReactorC.TraceSum.C88_values_not_shown: Quot.sound, propext
ReactorC.TraceSum.C88_waits_not_reported: Quot.sound, propext
ReactorC.TraceSum.C88_waits_not_measured: Quot.sound, propext
ReactorC.TraceSum.C88_unknown_reactors_not_kept_apart: propext
ReactorC.Wave.C89_files_are_read_partial: Quot.sound, propext
ReactorC.Wave.C89_missing_samples_are_zero_partial: Quot.sound, propext
ReactorC.Wave.C89_length_is_that_of_the_memory: propext
ReactorC.Wave.C89_where_files_are_looked_for: Classical.choice, Quot.sound, propext
ReactorC.Wave.C89_null_not_for_unsupported_formats: propext
ReactorC.Wave.C89_unsupported_formats_not_refused: propext
ReactorC.Wave.C89_empty_files_not_refused: Quot.sound, propext
ReactorC.Wave.C89_chunks_of_odd_size_not_skipped: propext
ReactorC.Wave.C89_chunks_not_safe: Quot.sound, propext
ReactorC.Wave.C89_files_without_data_not_refused: propext
ReactorC.Wave.C89_length_not_a_multiple: propext
ReactorC.Wave.C89_files_not_closed: Classical.choice, Quot.sound, propext
ReactorC.Audio.C90_frames_are_played_in_order_partial: Classical.choice, Quot.sound, propext
ReactorC.Audio.C90_reads_are_safe_partial: Classical.choice, Quot.sound, propext
ReactorC.Audio.C90_positions_are_in_the_waveform_partial: Classical.choice, Quot.sound, propext
ReactorC.Audio.C90_last_frame_not_played: Classical.choice, Quot.sound, propext
ReactorC.Audio.C90_notes_begin_in_time: Quot.sound, propext
ReactorC.Audio.C90_calls_wait_for_their_buffer: Classical.choice, Quot.sound, propext
ReactorC.Audio.C90_samples_are_limited: Classical.choice, Quot.sound, propext
ReactorC.Audio.C90_empty_waveforms_not_safe: Quot.sound, propext
ReactorC.Audio.C90_long_notes_not_in_order_on_linux: Classical.choice, Quot.sound, propext
ReactorC.Audio.C90_notes_not_heard_on_linux: Classical.choice, Quot.sound, propext
ReactorC.Printing.C91_messages_are_printed_partial: Classical.choice, Quot.sound, propext
ReactorC.Printing.C91_registered_function_gets_messages_partial: Classical.choice, Quot.sound, propext
ReactorC.Printing.C91_errors_are_printed_partial: Classical.choice, Quot.sound, propext
ReactorC.Printing.C91_fatal_errors_end_the_process_partial: Classical.choice, Quot.sound, propext
ReactorC.Printing.C91_system_failures_are_described_partial: Classical.choice, Quot.sound, propext
ReactorC.Printing.C91_warnings_not_always_printed: Classical.choice, Quot.sound, propext
ReactorC.Printing.C91_function_not_by_level: Classical.choice, Quot.sound, propext
ReactorC.Printing.C91_macros_not_by_level: Classical.choice, Quot.sound, propext
ReactorC.Printing.C91_names_not_safe: Classical.choice, Quot.sound, propext
ReactorC.Printing.C91_failures_not_described: Classical.choice, Quot.sound, propext
ReactorC.Sensor.C92_messages_are_shown_in_order_partial: Classical.choice, Quot.sound, propext
ReactorC.Sensor.C92_all_messages_are_shown_partial: Classical.choice, Quot.sound, propext
ReactorC.Sensor.C92_nodes_are_used_again: Classical.choice, Quot.sound, propext
ReactorC.Sensor.C92_windows_are_respected: Classical.choice, Quot.sound, propext
ReactorC.Sensor.C92_ticks_not_freed: Classical.choice, Quot.sound, propext
ReactorC.Sensor.C92_percent_not_shown: Classical.choice, Quot.sound, propext
ReactorC.Sensor.C92_registering_gives_codes: Classical.choice, Quot.sound, propext
ReactorC.Sensor.C92_keys_schedule_actions: Classical.choice, Quot.sound, propext
ReactorC.Sensor.C92_special_keys_not_told_apart: Classical.choice, Quot.sound, propext
ReactorC.Sensor.C92_restart_not_clean: Classical.choice, Quot.sound, propext
ReactorC.Sensor.C92_second_start_not_ignored: Classical.choice, Quot.sound, propext
ReactorC.Sensor.C92_log_files_not_safe: Classical.choice, Quot.sound, propext
ReactorC.Sensor.C92_end_not_twice: none
ReactorC.Influx.C93_lines_are_written_partial: Classical.choice, Quot.sound, propext
ReactorC.Influx.C93_only_lines_are_accepted: Classical.choice, Quot.sound, propext
ReactorC.Influx.C93_long_lines_not_complete: Classical.choice, Quot.sound, propext
ReactorC.Influx.C93_long_names_not_safe: Quot.sound, propext
ReactorC.Influx.C93_backslashes_not_escaped: Classical.choice, Quot.sound, propext
ReactorC.Influx.C93_requests_partial: Classical.choice, Quot.sound, propext
ReactorC.Influx.C93_failures_not_reported: Classical.choice, Quot.sound, propext
ReactorC.Influx.C93_records_are_uploaded_partial: Classical.choice, Quot.sound, propext
ReactorC.Influx.C93_count_not_total: Classical.choice, Quot.sound, propext
ReactorC.Influx.C93_failures_end_the_upload: Classical.choice, Quot.sound, propext
ReactorC.Influx.C93_reactions_not_told_apart: Classical.choice, Quot.sound, propext
ReactorC.Http.C94_status_is_returned: Classical.choice, Quot.sound, propext
ReactorC.Http.C94_body_is_read: Classical.choice, Quot.sound, propext
ReactorC.Http.C94_one_result: Classical.choice, Quot.sound, propext
ReactorC.Http.C94_closed_connections_not_noticed: Classical.choice, Quot.sound, propext
ReactorC.Http.C94_errors_are_noticed: Classical.choice, Quot.sound, propext
ReactorC.Http.C94_no_status_not_noticed: Classical.choice, Quot.sound, propext
ReactorC.Http.C94_line_feeds_not_understood: Classical.choice, Quot.sound, propext
ReactorC.Http.C94_requests_are_read_partial: Classical.choice, Quot.sound, propext
ReactorC.Http.C94_long_requests_not_sent: Classical.choice, Quot.sound, propext
ReactorC.Http.C94_names_not_encoded: Classical.choice, Quot.sound, propext
ReactorC.Http.C94_stages: propext
ReactorC.Http.C94_memory_is_freed_partial: propext
ReactorC.Rust.C95_camel_case: Quot.sound, propext
ReactorC.Rust.C95_code_is_read_partial: Classical.choice, Quot.sound, propext
ReactorC.Rust.C95_code_works_partial: Classical.choice, Quot.sound, propext
ReactorC.Rust.C95_event_types: Classical.choice, Quot.sound, propext
ReactorC.Rust.C95_same_words_not_accepted: Classical.choice, Quot.sound, propext
ReactorC.Rust.C95_descriptions_not_escaped: Classical.choice, Quot.sound, propext
ReactorC.Chrome.C96_output_is_read_partial: Classical.choice, Quot.sound, propext
ReactorC.Chrome.C96_begins_match_ends: Classical.choice, Quot.sound, propext
ReactorC.Chrome.C96_advances_not_matched: Classical.choice, Quot.sound, propext
ReactorC.Chrome.C96_rows_are_named: Classical.choice, Quot.sound, propext
ReactorC.Chrome.C96_advances_not_named: Classical.choice, Quot.sound, propext
ReactorC.Chrome.C96_rows_are_apart: Classical.choice, Quot.sound, propext
ReactorC.Chrome.C96_descriptions_not_escaped: Classical.choice, Quot.sound, propext
ReactorC.Chrome.C96_reaction_numbers_cut: Classical.choice, Quot.sound, propext
ReactorC.Chrome.C96_user_events_not_in_physical_time: Classical.choice, Quot.sound, propext
ReactorC.Chrome.C96_physical_time: Classical.choice, Quot.sound, propext
ReactorC.Chrome.C96_output_name: Classical.choice, Quot.sound, propext
ReactorC.Chrome.C96_input_is_overwritten: Classical.choice, Quot.sound, propext
ReactorC.Chrome.C96_arguments: Classical.choice, Quot.sound, propext
ReactorC.Ports.C97_rti_listens_on_default_port: Classical.choice, Quot.sound, propext
ReactorC.Ports.C97_rti_takes_least_free_port: Classical.choice, Quot.sound, propext
ReactorC.Ports.C97_rti_gives_up_after_all_ports: Quot.sound, propext
ReactorC.Ports.C97_rti_takes_the_given_port: Quot.sound, propext
ReactorC.Ports.C97_rti_exits_without_the_given_port: Quot.sound, propext
ReactorC.Ports.C97_udp_port_is_next: Classical.choice, Quot.sound, propext
ReactorC.Ports.C97_udp_port_not_searched: Quot.sound, propext
ReactorC.Ports.C97_search_ends: Quot.sound, propext
ReactorC.Ports.C97_federate_finds_rti: Classical.choice, Quot.sound, propext
ReactorC.Ports.C97_rti_and_federate_meet: Classical.choice, Quot.sound, propext
ReactorC.Ports.C97_joined_port_has_acknowledged: Classical.choice, Quot.sound, propext
ReactorC.Ports.C97_federate_finds_rti_on_given_port: Classical.choice, Quot.sound, propext
ReactorC.Ports.C97_rti_elsewhere_not_found: Classical.choice, Quot.sound, propext
ReactorC.Ports.C97_high_port_not_found: Classical.choice, Quot.sound, propext
ReactorC.Ports.C97_given_default_port_not_searched: Quot.sound, propext
ReactorC.Threads.C98_identifiers_differ: Quot.sound, propext
ReactorC.Threads.C98_user_threads_have_no_identifier: Quot.sound, propext
ReactorC.Threads.C98_buffers_suffice_partial: Quot.sound, propext
ReactorC.Threads.C98_no_write_outside_partial: Classical.choice, Quot.sound, propext
ReactorC.Threads.C98_federate_buffers_suffice_partial: Quot.sound, propext
ReactorC.Threads.C98_rti_buffers_suffice: Quot.sound, propext
ReactorC.Threads.C98_watchdogs_not_counted: Quot.sound, propext
ReactorC.Threads.C98_one_watchdog_not_noticed: Quot.sound, propext
ReactorC.Threads.C98_other_environments_not_counted: Quot.sound, propext
ReactorC.Threads.C98_number_of_workers: Quot.sound, propext
ReactorC.Threads.C98_unknown_cores_not_handled: none
ReactorC.Threads.C98_all_workers_run: Quot.sound, propext
ReactorC.Threads.C98_created_threads_take_identifiers: Quot.sound, propext
ReactorC.Threads.C98_workers_run_once: Classical.choice, Quot.sound, propext
ReactorC.Threads.C98_breadth_zero_not_executed: Classical.choice, Quot.sound, propext
ReactorC.Threads.C98_worker_numbers_partial: Classical.choice, Quot.sound, propext
ReactorC.Threads.C98_early_end_not_handled: Quot.sound, propext
ReactorC.TraceArgs.C99_csv_command_line_partial: Classical.choice, Quot.sound, propext
ReactorC.TraceArgs.C99_csv_files: Classical.choice, Quot.sound, propext
ReactorC.TraceArgs.C99_memory_in_front_is_irrelevant: Classical.choice, Quot.sound, propext
ReactorC.TraceArgs.C99_end_of_lft_not_safe: Classical.choice, Quot.sound, propext
ReactorC.TraceArgs.C99_minus_one_nanosecond_not_accepted: Classical.choice, Quot.sound, propext
ReactorC.TraceArgs.C99_long_options_not_accepted: Classical.choice, Quot.sound, propext
ReactorC.TraceArgs.C99_missing_file_not_handled: Classical.choice, Quot.sound, propext
ReactorC.TraceArgs.C99_influx_command_line: Classical.choice, Quot.sound, propext
ReactorC.TraceArgs.C99_influx_other_command_lines: Classical.choice, Quot.sound, propext
ReactorC.TraceArgs.C99_influx_unknown_option_not_rejected: Classical.choice, Quot.sound, propext
ReactorC.TraceArgs.C99_influx_invalid_port_not_rejected: Classical.choice, Quot.sound, propext
ReactorC.TraceArgs.C99_reported_number_not_total: none
ReactorC.PQueue.C100_check_is_exact: Quot.sound, propext
ReactorC.PQueue.C100_check_accepts_every_history: Classical.choice, Quot.sound, propext
ReactorC.PQueue.C100_print_shows_all_in_order: Classical.choice, Quot.sound, propext
ReactorC.PQueue.C100_print_positions_not_kept: Classical.choice, Quot.sound, propext
ReactorC.PQueue.C100_remove_after_print_not_safe: Classical.choice, Quot.sound, propext
ReactorC.PQueue.C100_dump_shows_all: Classical.choice, Quot.sound, propext
ReactorC.Windows.C101_timeout_is_not_early: Classical.choice, Quot.sound, propext
ReactorC.Windows.C101_waits_are_as_long_as_asked: Quot.sound, propext
ReactorC.Windows.C101_timeouts_are_reported: Quot.sound, propext
ReactorC.Windows.C101_long_waits_not_ended: Classical.choice, Quot.sound, propext
ReactorC.Windows.C101_no_wait_for_the_past: Quot.sound, propext
ReactorC.Windows.C101_signals_end_waits: Classical.choice, Quot.sound, propext
ReactorC.Windows.C101_sleep_lasts: Quot.sound, propext
ReactorC.Windows.C101_sleep_may_end: Quot.sound, propext
ReactorC.Windows.C101_sleep_result_not_as_documented: Classical.choice, Quot.sound, propext
ReactorC.Windows.C101_tags_are_not_early_partial: Quot.sound, propext
ReactorC.Windows.C101_tags_are_not_late: Quot.sound, propext
ReactorC.Windows.C101_failed_timer_not_waited_for: Quot.sound, propext
ReactorC.Windows.C101_clock_is_accurate: Classical.choice, Quot.sound, propext
ReactorC.Windows.C101_clock_is_monotone: Classical.choice, Quot.sound, propext
ReactorC.Windows.C101_failed_reading_not_reported: Classical.choice, Quot.sound, propext
ReactorC.Windows.C101_clock_without_counter_not_usable: Classical.choice, Quot.sound, propext
ReactorC.Args.C102_program_runs_iff: Classical.choice, Quot.sound, propext
ReactorC.Args.C102_program_refuses_otherwise: Classical.choice, Quot.sound, propext
ReactorC.Args.C102_command_line_comes_last: Classical.choice, Quot.sound, propext
ReactorC.Args.C102_command_line_replaces_defaults: Classical.choice, Quot.sound, propext
ReactorC.Args.C102_last_timeout_counts: Classical.choice, Quot.sound, propext
ReactorC.Args.C102_nothing_given: Classical.choice, Quot.sound, propext
ReactorC.Args.Py.C102_python_arguments_are_passed: Classical.choice, Quot.sound, propext
ReactorC.Args.Py.C102_python_without_arguments: Classical.choice, Quot.sound, propext
ReactorC.Args.Py.C102_python_wrong_items_are_refused: Classical.choice, Quot.sound, propext
ReactorC.Args.Py.C102_python_other_objects_not_refused: Classical.choice, Quot.sound, propext
ReactorC.Args.Py.C102_python_more_arguments_not_safe: Classical.choice, Quot.sound, propext
ReactorC.Args.Py.C102_python_zeros_not_passed: Classical.choice, Quot.sound, propext
ReactorC.Platform.ThreadSched.Linux.C103_other_threads_are_not_affected: Classical.choice, Quot.sound, propext
ReactorC.Platform.ThreadSched.Linux.C103_priority_is_set: Classical.choice, Quot.sound, propext
ReactorC.Platform.ThreadSched.Linux.C103_policy_is_set: Classical.choice, Quot.sound, propext
ReactorC.Platform.ThreadSched.Linux.C103_order_of_priorities_is_kept: Classical.choice, Quot.sound, propext
ReactorC.Platform.ThreadSched.Linux.C103_policies_can_be_set: Classical.choice, Quot.sound, propext
ReactorC.Platform.ThreadSched.Linux.C103_refused_priority_has_no_effect: propext
ReactorC.Platform.ThreadSched.Linux.C103_refused_policy_has_no_effect_partial: propext
ReactorC.Platform.ThreadSched.Linux.C103_refused_policy_not_without_effect: Quot.sound, propext
ReactorC.Platform.ThreadSched.Linux.C103_thread_is_bound_to_processor: Quot.sound, propext
ReactorC.Platform.ThreadSched.Zephyr.C103_zephyr_policy_is_set: Classical.choice, Quot.sound, propext
ReactorC.Platform.ThreadSched.Zephyr.C103_zephyr_policies_can_be_set: Classical.choice, Quot.sound, propext
ReactorC.Platform.ThreadSched.Zephyr.C103_zephyr_fair_not_available: none
ReactorC.Platform.ThreadSched.Zephyr.C103_zephyr_short_slices_not_kept: Classical.choice, Quot.sound, propext
ReactorC.Platform.ThreadSched.Zephyr.C103_zephyr_refused_policy_not_without_effect: Classical.choice, Quot.sound, propext
ReactorC.Platform.Flexpret.C104_instruction_waits_for_the_next_time: Quot.sound, propext
ReactorC.Platform.Flexpret.C104_never_early: Classical.choice, Quot.sound, propext
ReactorC.Platform.Flexpret.C104_sleep_never_short: Classical.choice, Quot.sound, propext
ReactorC.Platform.Flexpret.C104_exact_in_first_epoch_partial: Quot.sound, propext
ReactorC.Platform.Flexpret.C104_too_long_by_the_epochs_before: Quot.sound, propext
ReactorC.Platform.Flexpret.C104_sleep_not_bounded: Quot.sound, propext
ReactorC.Platform.Flexpret.C104_passed_time_returns_at_once_partial: Quot.sound, propext
ReactorC.Platform.Flexpret.C104_passed_time_not_noticed: Classical.choice, Quot.sound, propext
ReactorC.Platform.Flexpret.C104_short_wait_not_kept: Quot.sound, propext
ReactorC.Platform.Flexpret.C104_no_epoch_is_added: Quot.sound, propext
ReactorC.Platform.ThreadPool.C105_own_stack: Classical.choice, Quot.sound, propext
ReactorC.Platform.ThreadPool.C105_refused_only_when_none_is_left: Classical.choice, Quot.sound, propext
ReactorC.Platform.ThreadPool.C105_calls_return_partial: Classical.choice, Quot.sound, propext
ReactorC.Platform.ThreadPool.C105_calls_after_a_refusal_not_returning: Classical.choice, Quot.sound, propext
ReactorC.Platform.ThreadPool.C105_pico_one_thread: Classical.choice, Quot.sound, propext
ReactorC.Platform.ThreadPool.C105_pico_join: Classical.choice, Quot.sound, propext
ReactorC.Modes.Suspended.C106_begins_empty: Quot.sound, propext
ReactorC.Modes.Suspended.C106_suspended_event_is_kept: Classical.choice, Quot.sound, propext
ReactorC.Modes.Suspended.C106_events_of_the_mode_are_taken: Classical.choice, Quot.sound, propext
ReactorC.Modes.Suspended.C106_number_is_exact: propext
ReactorC.Modes.Suspended.C106_all_elements_are_freed_once: Classical.choice, Quot.sound, propext
ReactorC.Modes.Suspended.C106_all_histories: Classical.choice, Quot.sound, propext
ReactorC.Modes.Suspended.C106_removal_of_others_not_safe: none
