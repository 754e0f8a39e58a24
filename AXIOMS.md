# Axioms used by the theorems in MANIFEST.json

Generated by tools/axioms.py from `#print axioms`. P = propext, C = Classical.choice, Q = Quot.sound (Lean's three standard axioms); - = none. No other axiom occurs.

| property | theorem | axioms |
|---|---|---|
| C01 | Vector.C01_vector_refines_bounded_list | P C Q |
| C01 | Vector.C01_vector_single_call | P C Q |
| C02 | Vector.C02_vector_overflow_throws_and_changes_nothing | P C Q |
| C02 | Vector.C02_vector_overflow_condition | P C Q |
| C03 | Vector.C03_vector_lifetimes_exact | P C Q |
| C04 | Vector.C04_vector_at_exact | P C Q |
| C05 | Vector.C05_vector_basic_exception_safety | P C Q |
| C05 | Vector.C05_vector_exceptions_propagate | P Q |
| C06 | Vector.C06_vector_push_back_alias_partial | P Q |
| C06 | Vector.C06_vector_resize_alias_partial | P C Q |
| C06 | Vector.C06_vector_insert_alias_before_partial | P C Q |
| C06 | Vector.C06_vector_insert_alias_exact_partial | P C Q |
| C06 | Vector.C06_vector_insert_alias_iff | P C Q |
| C06 | Vector.C06_vector_assign_alias_ub | P C Q |
| C06 | Vector.C06_vector_insert_alias_fails | P |
| C06 | Vector.C06_vector_assign_alias_fails | P |
| C07 | Vector.C07_vector_insert_position | P C Q |
| C07 | Vector.C07_vector_erase_position | P C Q |
| C08 | Vector.C08_vector_copy_assign | P C Q |
| C08 | Vector.C08_vector_equality | P C Q |
| C09 | Vector.C09_vector_debug_empty | P C Q |
| C09 | Vector.C09_vector_debug_positions | P C Q |
| C09 | Vector.C09_vector_debug_equals_release | P C Q |
| C10 | Deque.C10_deque_single_call | P C Q |
| C10 | Deque.C10_deque_refines_bounded_list | P C Q |
| C10 | Deque.C10_deque_fresh | P Q |
| C100 | ThreadPoolQueue.C100_refines | P C Q |
| C100 | ThreadPoolQueue.C100_filled | P C Q |
| C100 | ThreadPoolQueue.C100_mq | P C Q |
| C100 | ThreadPoolQueue.C100_std | P C Q |
| C100 | ThreadPoolQueue.C100_itron | P C Q |
| C100 | ThreadPoolQueue.C100_mq_stuck | P C Q |
| C100 | ThreadPoolQueue.C100_std_stuck | P C Q |
| C100 | ThreadPoolQueue.C100_itron_stuck | P C Q |
| C100 | ThreadPoolQueue.C100_mq_terminates | P C Q |
| C100 | ThreadPoolQueue.C100_mq_reaches | P C Q |
| C100 | ThreadPoolQueue.C100_std_terminates | P C Q |
| C100 | ThreadPoolQueue.C100_std_reaches | P C Q |
| C100 | ThreadPoolQueue.C100_itron_terminates | P C Q |
| C100 | ThreadPoolQueue.C100_itron_reaches | P C Q |
| C101 | ThreadPriority.C101_current | P Q |
| C101 | ThreadPriority.C101_initial | P Q |
| C101 | ThreadPriority.C101_given | P C Q |
| C101 | ThreadPriority.C101_inherit_partial | P C Q |
| C101 | ThreadPriority.C101_inherit_serial_partial | P C Q |
| C101 | ThreadPriority.C101_range | P C Q |
| C101 | ThreadPriority.C101_posix | P C Q |
| C101 | ThreadPriority.C101_windows | P C Q |
| C101 | ThreadPriority.C101_inherit_counterexample | P C Q |
| C101 | ThreadPriority.C101_stale | P Q |
| C102 | ThreadPoolTime.C102_bound_partial | P C Q |
| C102 | ThreadPoolTime.C102_wait | P C Q |
| C102 | ThreadPoolTime.C102_polling | P C Q |
| C102 | ThreadPoolTime.C102_notEarly | P C Q |
| C102 | ThreadPoolTime.C102_counterexample | P Q |
| C102 | ThreadPoolTime.C102_gives_up | P Q |
| C102 | ThreadPoolTime.C102_wait_tight | P Q |
| C103 | ThreadPoolErr.C103_rounds | P C Q |
| C103 | ThreadPoolErr.C103_once | P C Q |
| C103 | ThreadPoolErr.C103_max | P C Q |
| C103 | ThreadPoolErr.C103_ok | P C Q |
| C103 | ThreadPoolErr.C103_notOk | P C Q |
| C103 | ThreadPoolErr.C103_error | P C Q |
| C103 | ThreadPoolErr.C103_reported | P C Q |
| C103 | ThreadPoolErr.C103_wait_partial | P C Q |
| C103 | ThreadPoolErr.C103_release_partial | P C Q |
| C103 | ThreadPoolErr.C103_invalid | P C Q |
| C103 | ThreadPoolErr.C103_destroy_partial | P C Q |
| C103 | ThreadPoolErr.C103_destroy_count | P C Q |
| C103 | ThreadPoolErr.C103_available_partial | P C Q |
| C103 | ThreadPoolErr.C103_noError | P Q |
| C103 | ThreadPoolErr.C103_release_counterexample | P |
| C103 | ThreadPoolErr.C103_wait_counterexample | P |
| C103 | ThreadPoolErr.C103_available_counterexample | P |
| C103 | ThreadPoolErr.C103_destroy_counterexample | P |
| C103 | ThreadPoolErr.C103_notify_counterexample | P C Q |
| C104 | EventFlagTime.C104_timeout | P C Q |
| C104 | EventFlagTime.C104_prompt | P C Q |
| C105 | ThreadTime.C105_timeout | P C Q |
| C105 | ThreadTime.C105_prompt | P C Q |
| C106 | NoExceptions.C106_vector_handler_that_stops | P C Q |
| C106 | NoExceptions.C106_deque_handler_that_stops | P C Q |
| C106 | NoExceptions.C106_builds_agree | P Q |
| C106 | NoExceptions.C106_array_handler_that_stops | P Q |
| C106 | NoExceptions.C106_vector_fitting_calls_need_no_handler | P C Q |
| C106 | NoExceptions.C106_deque_fitting_calls_need_no_handler | P C Q |
| C106 | NoExceptions.C106_vector_returning_handler_is_undefined | P C Q |
| C106 | NoExceptions.C106_array_returning_handler_is_undefined | P |
| C106 | NoExceptions.C106_deque_push_back_returning_handler_empties | P C Q |
| C106 | NoExceptions.C106_deque_push_front_returning_handler_empties | P C Q |
| C106 | NoExceptions.C106_deque_at_returning_handler | P C Q |
| C106 | NoExceptions.C106_returning_handler_disables_debug_checks | P Q |
| C107 | ItronRace.C107_race_free_partial | P Q |
| C107 | ItronRace.C107_only_setters_partial | P Q |
| C107 | ItronRace.C107_handler | P Q |
| C107 | ItronRace.C107_mutex | P Q |
| C107 | ItronRace.C107_exactly | P Q |
| C107 | ItronRace.C107_timer_name | P Q |
| C107 | ItronRace.C107_setters | P Q |
| C107 | ItronRace.C107_mutex_count | P C Q |
| C108 | ItronRace.C108_callback_holds_nothing | P Q |
| C108 | ItronRace.C108_no_deadlock | P C Q |
| C108 | ItronRace.C108_no_self_lock | P Q |
| C108 | ItronRace.C108_no_cycle | P C Q |
| C109 | ThreadPoolFlag.C109_refines | P C Q |
| C109 | ThreadPoolFlag.C109_std | P C Q |
| C109 | ThreadPoolFlag.C109_itron | P C Q |
| C109 | ThreadPoolFlag.C109_std_free | P C Q |
| C109 | ThreadPoolFlag.C109_itron_free | P C Q |
| C109 | ThreadPoolFlag.C109_std_stuck | P C Q |
| C109 | ThreadPoolFlag.C109_itron_stuck | P C Q |
| C109 | ThreadPoolFlag.C109_std_terminates | P C Q |
| C109 | ThreadPoolFlag.C109_std_reaches | P C Q |
| C109 | ThreadPoolFlag.C109_itron_terminates | P C Q |
| C109 | ThreadPoolFlag.C109_itron_reaches | P C Q |
| C11 | Deque.C11_deque_overflow_throws_and_changes_nothing | P C Q |
| C11 | Deque.C11_deque_push_front_condition | P |
| C110 | MutexHandler.C110_reported | P Q |
| C110 | MutexHandler.C110_returns | P C Q |
| C110 | MutexHandler.C110_tasks_partial | P Q |
| C110 | MutexHandler.C110_exclusion_partial | P C Q |
| C110 | MutexHandler.C110_steals | P C Q |
| C110 | MutexHandler.C110_unlock_counterexample | P |
| C110 | MutexHandler.C110_lock_codes | P |
| C110 | MutexHandler.C110_flag_codes | P |
| C110 | MutexHandler.C110_unlock_codes | P |
| C110 | MutexHandler.C110_thread_codes_partial | P |
| C110 | MutexHandler.C110_thread_counterexample | P |
| C111 | ThreadPoolThread.C111_refines | P C Q |
| C111 | ThreadPoolThread.C111_std | P C Q |
| C111 | ThreadPoolThread.C111_std_calls | P C Q |
| C111 | ThreadPoolThread.C111_std_free | P C Q |
| C111 | ThreadPoolThread.C111_std_stuck | P C Q |
| C112 | ThreadPoolItron.C112_correct | P C Q |
| C112 | ThreadPoolItron.C112_calls | P C Q |
| C112 | ThreadPoolItron.C112_free | P C Q |
| C112 | ThreadPoolItron.C112_stuck | P C Q |
| C113 | MessageQueueErr.C113_queue_partial | P C Q |
| C113 | MessageQueueErr.C113_ring_partial | P C Q |
| C113 | MessageQueueErr.C113_stuck_partial | P C Q |
| C113 | MessageQueueErr.C113_reset_undefined | P |
| C113 | MessageQueueErr.C113_signal_hangs | P C Q |
| C114 | RaceWait.C114_holds | P Q |
| C114 | RaceWait.C114_out_of_the_way | P Q |
| C114 | RaceWait.C114_owner_runs | P Q |
| C114 | RaceWait.C114_sender | P |
| C114 | RaceWait.C114_receiver | P |
| C114 | RaceWait.C114_windows_destroy | P |
| C12 | Deque.C12_deque_lifetimes_exact | P C Q |
| C13 | Deque.C13_deque_at_exact | P C Q |
| C14 | Deque.C14_deque_basic_exception_safety | P C Q |
| C14 | Deque.C14_deque_exceptions_propagate | P Q |
| C15 | Deque.C15_deque_push_alias_partial | P Q |
| C15 | Deque.C15_deque_resize_alias_partial | P C Q |
| C15 | Deque.C15_deque_insert_alias_other_side_partial | P C Q |
| C15 | Deque.C15_deque_insert_alias_exact_partial | P C Q |
| C15 | Deque.C15_deque_insert_alias_iff | P C Q |
| C15 | Deque.C15_deque_assign_alias_ub | P C Q |
| C15 | Deque.C15_deque_insert_alias_fails | - |
| C15 | Deque.C15_deque_assign_alias_fails | - |
| C16 | Deque.C16_deque_iterators_random_access | P C Q |
| C17 | Deque.C17_deque_end_ops_keep_addresses | P C Q |
| C18 | Deque.C18_deque_insert_moves_one_side | P C Q |
| C18 | Deque.C18_deque_erase_moves_one_side | P C Q |
| C19 | Deque.C19_deque_debug_empty | P C Q |
| C19 | Deque.C19_deque_debug_positions | P C Q |
| C19 | Deque.C19_deque_debug_equals_release | P C Q |
| C20 | Deque.C20_deque_copy_assign | P C Q |
| C20 | Deque.C20_deque_equality | P C Q |
| C21 | Prealloc.C21_init_binds_once | P |
| C21 | Prealloc.C21_later_inits_have_no_effect | P |
| C21 | Prealloc.C21_vector_capacity | P C Q |
| C21 | Prealloc.C21_deque_capacity | P C Q |
| C22 | Prealloc.C22_deque_push_stays_in_buffer_partial | P C Q |
| C22 | Prealloc.C22_deque_small_buffer_overflows | P Q |
| C23 | Array.C23_array_access | P Q |
| C23 | Array.C23_array_assign_element | P Q |
| C23 | Array.C23_array_fill | P C Q |
| C23 | Array.C23_array_equality | P C Q |
| C24 | BitPattern.C24_bitpattern_is_a_set | P C Q |
| C24 | BitPattern.C24_bitpattern_histories | P C Q |
| C24 | BitPattern.C24_bitpattern_construct | P Q |
| C25 | BitPattern.C25_bitpattern_promotion_immune | P C Q |
| C25 | BitPattern.C25_bitpattern_debug_range | P |
| C26 | IntrusiveList.C26_history | P C Q |
| C26 | IntrusiveList.C26_observers | P C Q |
| C27 | IntrusiveList.C27_splice_range | P C Q |
| C27 | IntrusiveList.C27_splice_one | P C Q |
| C27 | IntrusiveList.C27_splice_all | P C Q |
| C28 | IntrusiveList.C28_swap | P C Q |
| C28 | IntrusiveList.C28_self | P |
| C29 | IntrusiveList.C29_frame | P C Q |
| C29 | IntrusiveList.C29_other_lists | P C Q |
| C29 | IntrusiveList.C29_iterators | P C Q |
| C30 | IntrusiveList.C30_empty | P C Q |
| C30 | IntrusiveList.C30_null | P Q |
| C30 | IntrusiveList.C30_splice | P Q |
| C30 | IntrusiveList.C30_release_agrees | P |
| C30 | IntrusiveList.C30_in_contract | P C Q |
| C31 | Assertion.C31_message | P C Q |
| C31 | Assertion.C31_in_bounds | P C Q |
| C31 | Assertion.C31_buffer | P C Q |
| C31 | Assertion.C31_untruncated | P C Q |
| C32 | Assertion.C32_true_no_effect | P C Q |
| C32 | Assertion.C32_false | P C Q |
| C32 | Assertion.C32_no_fall_through | P C Q |
| C32 | Assertion.C32_debug | P C Q |
| C32 | Assertion.C32_handler_last | P Q |
| C33 | Priority.C33_clamped | P C Q |
| C33 | Priority.C33_defined | P C Q |
| C33 | Priority.C33_steps | P C Q |
| C33 | Priority.C33_directed | P C Q |
| C34 | Priority.C34_full_false | - |
| C34 | Priority.C34_stdCpp | P C Q |
| C34 | Priority.C34_normal_partial | P C Q |
| C34 | Priority.C34_middle_partial | P C Q |
| C35 | Priority.C35_total_partial | P C Q |
| C35 | Priority.C35_monotone_partial | P C Q |
| C35 | Priority.C35_exact_partial | P C Q |
| C35 | Priority.C35_full_false | P |
| C35 | Priority.C35_setPriority_partial | P C Q |
| C36 | Priority.C36_windows | P C Q |
| C36 | Priority.C36_setPriority | P C Q |
| C37 | Mutex.C37_exclusion | P C Q |
| C37 | Mutex.C37_busy | P C Q |
| C37 | Mutex.C37_timedOut_only_if_busy | P C Q |
| C37 | Mutex.C37_recursion | P C Q |
| C37 | Mutex.C37_released | P C Q |
| C37 | Mutex.C37_relock | P C Q |
| C37 | Mutex.C37_results | P C Q |
| C38 | Mutex.C38_full_false | P |
| C38 | Mutex.C38_always_ub | P C Q |
| C38 | Mutex.C38_free_partial | P C Q |
| C39 | Mutex.C39_exclusion | P C Q |
| C39 | Mutex.C39_recursion | P C Q |
| C39 | Mutex.C39_unlock_holder | P C Q |
| C39 | Mutex.C39_unlock_nonholder | P C Q |
| C39 | Mutex.C39_unlock_result | P C Q |
| C39 | Mutex.C39_busy | P C Q |
| C39 | Mutex.C39_granted | P C Q |
| C39 | Mutex.C39_results | P C Q |
| C40 | Mutex.C40_calls | P |
| C40 | Mutex.C40_balanced | P Q |
| C40 | Mutex.C40_adopt | P C Q |
| C40 | Mutex.C40_failed_lock | P |
| C41 | EventFlag.C41_pattern | P C Q |
| C41 | EventFlag.C41_itron | P C Q |
| C41 | EventFlag.C41_get | P Q |
| C41 | EventFlag.C41_order | P C Q |
| C42 | EventFlag.C42_linearizable | P C Q |
| C42 | EventFlag.C42_ok | P C Q |
| C42 | EventFlag.C42_timedOut | P C Q |
| C42 | EventFlag.C42_autoReset_once | P C Q |
| C43 | EventFlag.C43_stuck | P C Q |
| C43 | EventFlag.C43_no_lost_wakeup | P C Q |
| C43 | EventFlag.C43_alone | P C Q |
| C43 | EventFlag.C43_set_wakes | P C Q |
| C44 | EventFlag.C44_invalid | P C Q |
| C44 | EventFlag.C44_invalid_itron | P C Q |
| C44 | EventFlag.C44_only | P C Q |
| C45 | EventFlag.C45_refines | P C Q |
| C45 | EventFlag.C45_stuck | P C Q |
| C46 | MessageQueue.C46_linearizable | P C Q |
| C46 | MessageQueue.C46_fifo | P C Q |
| C46 | MessageQueue.C46_order | P C Q |
| C47 | MessageQueue.C47_capacity | P C Q |
| C48 | MessageQueue.C48_ring | P C Q |
| C49 | MessageQueue.C49_no_effect | P C Q |
| C49 | MessageQueue.C49_reason | P C Q |
| C49 | MessageQueue.C49_markers | P C Q |
| C50 | MessageQueue.C50_stuck | P C Q |
| C50 | MessageQueue.C50_terminates | P C Q |
| C50 | MessageQueue.C50_reaches | P C Q |
| C51 | MessageQueueLife.C51_room_partial | P C Q |
| C51 | MessageQueueLife.C51_counterexample | P C Q |
| C52 | MessageQueueLife.C52_create | P C Q |
| C53 | MessageQueueLife.C53_destroy_partial | P C Q |
| C53 | MessageQueueLife.C53_counterexample | P |
| C54 | MessageQueueTime.C54_twice_partial | P C Q |
| C54 | MessageQueueTime.C54_counterexample | P C Q |
| C55 | Thread.C55_linearizable | P C Q |
| C55 | Thread.C55_counts | P C Q |
| C55 | Thread.C55_start | P C Q |
| C56 | Thread.C56_ok | P C Q |
| C56 | Thread.C56_timedOut | P C Q |
| C56 | Thread.C56_isFinished | P C Q |
| C56 | Thread.C56_stuck | P C Q |
| C56 | Thread.C56_terminates | P C Q |
| C57 | Thread.C57_destroyed | P C Q |
| C57 | Thread.C57_overlap_lost_run | P |
| C57 | Thread.C57_overlap_hang | P C Q |
| C58 | Main.C58_returns | P |
| C58 | Main.C58_normal | P |
| C58 | Main.C58_thread | P |
| C58 | Main.C58_timer | P |
| C58 | Main.C58_stop_throws | P |
| C58 | Main.C58_null | P |
| C59 | Timer.C59_linearizable | P C Q |
| C59 | Timer.C59_once | P C Q |
| C59 | Timer.C59_per_start | P C Q |
| C60 | Timer.C60_isStarted | P C Q |
| C60 | Timer.C60_effective | P C Q |
| C60 | Timer.C60_stop_partial | P C Q |
| C60 | Timer.C60_return_partial | P C Q |
| C60 | Timer.C60_counterexample | P |
| C61 | Timer.C61_periodic_partial | P C Q |
| C61 | Timer.C61_oneShot_partial | P C Q |
| C61 | Timer.C61_counterexample | P C Q |
| C61 | Timer.C61_self_counterexample | P C Q |
| C61 | TimerReturn.C61_oneShot_noLateStop_partial | P C Q |
| C61 | TimerReturn.C61_missed | P C Q |
| C62 | Timer.C62_periodic_partial | P C Q |
| C62 | Timer.C62_oneShot_partial | P C Q |
| C62 | Timer.C62_counterexample | P C Q |
| C62 | Timer.C62_two_counterexample | P C Q |
| C62 | TimerReturn.C62_oneShot_noRun_partial | P C Q |
| C62 | TimerReturn.C62_missed | P C Q |
| C63 | TimerTime.C63_callback | P C Q |
| C63 | TimerTime.C63_never | P C Q |
| C63 | TimerTime.C63_repeats | P C Q |
| C64 | ThreadPool.C64_rounds | P C Q |
| C64 | ThreadPool.C64_ok | P C Q |
| C64 | ThreadPool.C64_error | P C Q |
| C64 | ThreadPool.C64_source | P C Q |
| C64 | ThreadPool.C64_once | P C Q |
| C64 | ThreadPool.C64_atMost | P C Q |
| C64 | ThreadPool.C64_runs | P C Q |
| C65 | ThreadPool.C65_one | P C Q |
| C65 | ThreadPool.C65_max | P C Q |
| C66 | ThreadPoolGuard.C66_life | P C Q |
| C66 | ThreadPoolGuard.C66_ok | P C Q |
| C66 | ThreadPoolGuard.C66_results | P C Q |
| C66 | ThreadPoolGuard.C66_prompt | P C Q |
| C66 | ThreadPoolGuard.C66_release | P C Q |
| C66 | ThreadPoolGuard.C66_once | P C Q |
| C66 | ThreadPoolGuard.C66_valid | P C Q |
| C66 | ThreadPoolGuard.C66_exclusive | P C Q |
| C66 | ThreadPoolGuard.C66_releases | P C Q |
| C66 | ThreadPoolGuard.C66_waits | P C Q |
| C67 | ThreadPoolGuard.C67_available_partial | P C Q |
| C67 | ThreadPoolGuard.C67_drop | P C Q |
| C67 | ThreadPoolGuard.C67_forever_partial | P C Q |
| C67 | ThreadPoolGuard.C67_counterexample | P |
| C67 | ThreadPoolMore.C67_capacity_partial | P C Q |
| C68 | ThreadPoolGuard.C68_after | P C Q |
| C68 | ThreadPoolGuard.C68_handler | P C Q |
| C69 | ThreadPoolCreate.C69_create_returns_partial | P C Q |
| C69 | ThreadPoolCreate.C69_null_iff_partial | P C Q |
| C69 | ThreadPoolCreate.C69_create_fails_partial | P C Q |
| C69 | ThreadPoolCreate.C69_create_succeeds_partial | P C Q |
| C69 | ThreadPoolCreate.C69_destroy_partial | P C Q |
| C69 | ThreadPoolCreate.C69_destroy_null | - |
| C69 | ThreadPoolCreate.C69_counterexample | - |
| C69 | ThreadPoolCreate.C69_lost_thread | - |
| C70 | ThreadPoolGuard.C70_tasks | P C Q |
| C70 | ThreadPoolGuard.C70_threads_partial | P C Q |
| C70 | ThreadPoolGuard.C70_returns | P C Q |
| C70 | ThreadPoolMore.C70_counterexample | P |
| C71 | ThreadPoolGuard.C71_null | P C Q |
| C71 | ThreadPoolGuard.C71_untouched | P C Q |
| C72 | ItronPool.C72_exclusive | P C Q |
| C72 | ItronPool.C72_create | P C Q |
| C72 | ItronPool.C72_reusable | P C Q |
| C72 | ItronPool.C72_blockSize | P C Q |
| C72 | ItronPool.C72_fresh | P C Q |
| C72 | ItronPool.C72_capacity_partial | P C Q |
| C72 | ItronPool.C72_count | P C Q |
| C72 | ItronPool.C72_no_pool | P C Q |
| C72 | ItronPool.C72_dealloc_null | P |
| C72 | ItronPool.C72_total_create | Q |
| C72 | ItronPool.C72_counterexample | P Q |
| C73 | Fronts.C73_no_factory | P |
| C73 | Fronts.C73_create | P |
| C73 | Fronts.C73_rejects | P |
| C73 | Fronts.C73_destroy_nothing | P |
| C73 | Fronts.C73_destroy | P |
| C73 | Fronts.C73_history | P C Q |
| C74 | ItronThreadTable.C74_current | P C Q |
| C74 | ItronThreadTable.C74_fresh | P Q |
| C74 | ItronThreadTable.C74_capacity | P Q |
| C74 | ItronThreadTable.C74_destroy | P Q |
| C74 | ItronThreadTable.C74_no_leak | P Q |
| C74 | ItronThreadTable.C74_foreign | P Q |
| C74 | ItronThreadTable.C74_create_rollback | P Q |
| C74 | ItronThreadTable.C74_create_iff | P Q |
| C75 | ItronThread.C75_linearizable | P C Q |
| C75 | ItronThread.C75_counts | P C Q |
| C75 | ItronThread.C75_start | P C Q |
| C75 | ItronThread.C75_ok | P C Q |
| C75 | ItronThread.C75_isFinished | P C Q |
| C75 | ItronThread.C75_timedOut | P C Q |
| C75 | ItronThread.C75_run_priority | P C Q |
| C75 | ItronThread.C75_getPriority | P C Q |
| C75 | ItronThread.C75_base_priority | P C Q |
| C75 | ItronThread.C75_destroyed | P C Q |
| C75 | ItronThread.C75_dormant | P C Q |
| C76 | Timer.C76_returns | P C Q |
| C76 | Timer.C76_destroyed | P C Q |
| C77 | ThreadPoolMore.C77_returns | P C Q |
| C77 | ThreadPoolMore.C77_stuck | P C Q |
| C77 | ThreadPoolMore.C77_terminates | P C Q |
| C78 | ItronThread.C78_tryWait_blocks | P C Q |
| C78 | ItronThread.C78_wait_returns_partial | P C Q |
| C79 | StdThreadTable.C79_alive | P C Q |
| C79 | StdThreadTable.C79_run_partial | P C Q |
| C79 | StdThreadTable.C79_other_partial | P C Q |
| C79 | StdThreadTable.C79_fresh | P C Q |
| C79 | StdThreadTable.C79_destroy | P C Q |
| C79 | StdThreadTable.C79_no_leak | P C Q |
| C79 | StdThreadTable.C79_lost | P |
| C79 | StdThreadTable.C79_mistaken | P |
| C80 | StdCreate.C80_create_partial | P Q |
| C80 | StdCreate.C80_destroy | P Q |
| C80 | StdCreate.C80_terminate | P |
| C80 | StdCreate.C80_assert | P |
| C80 | StdCreate.C80_posix_priority | P C Q |
| C80 | StdCreate.C80_windows_priority | P C Q |
| C80 | StdCreate.C80_inherit_terminates | P |
| C81 | StdCreate.C81_create_partial | P Q |
| C81 | StdCreate.C81_destroy | P Q |
| C81 | StdCreate.C81_null_deref | P |
| C81 | StdCreate.C81_leak | P Q |
| C81 | StdCreate.C81_posix_priority | P C Q |
| C81 | StdCreate.C81_no_map | P |
| C82 | WinTimer.C82_at_most_once | P C Q |
| C82 | WinTimer.C82_no_start | P C Q |
| C82 | WinTimer.C82_one_per_start | P C Q |
| C82 | WinTimer.C82_not_forgotten | P C Q |
| C82 | WinTimer.C82_not_strict_two_callbacks | P Q |
| C83 | WinTimer.C83_isStarted | P C Q |
| C83 | WinTimer.C83_start | P C Q |
| C83 | WinTimer.C83_stop | P C Q |
| C83 | WinTimer.C83_too_late | P C Q |
| C83 | WinTimer.C83_stopped_partial | P C Q |
| C83 | WinTimer.C83_callback_after_stop | P Q |
| C83 | WinTimer.C83_stop_without_effect | P Q |
| C83 | WinTimer.C83_not_strict_unstoppable | P Q |
| C84 | WinTimer.C84_destroy_partial | P C Q |
| C84 | WinTimer.C84_wait_partial | P C Q |
| C84 | WinTimer.C84_pending_callback | P Q |
| C84 | WinTimer.C84_unlock_after_delete | P Q |
| C84 | WinTimer.C84_overlap | P Q |
| C85 | ItronFactory.C85_fresh | P C Q |
| C85 | ItronFactory.C85_bound | P C Q |
| C85 | ItronFactory.C85_no_leak | P C Q |
| C85 | ItronFactory.C85_own | P C Q |
| C85 | ItronFactory.C85_null | P C Q |
| C85 | ItronFactory.C85_foreign | P C Q |
| C85 | ItronFactory.C85_possible | P Q |
| C86 | ItronFactory.C86_callback | P C Q |
| C86 | ItronFactory.C86_no_uaf | P C Q |
| C86 | ItronFactory.C86_isStarted | P C Q |
| C86 | ItronFactory.C86_destroyed | P C Q |
| C86 | ItronFactory.C86_fires | P C Q |
| C87 | Ctor.C87_vector | P C Q |
| C87 | Ctor.C87_deque | P C Q |
| C87 | Ctor.C87_survivors_partial | P C Q |
| C87 | Ctor.C87_survivors_n_partial | P C Q |
| C87 | Ctor.C87_counterexample | P C Q |
| C87 | Ctor.C87_copy | P C Q |
| C88 | MutexExit.C88_exclusion_partial | P C Q |
| C88 | MutexExit.C88_recursion_partial | P C Q |
| C88 | MutexExit.C88_unlock_partial | P C Q |
| C88 | MutexExit.C88_free | P Q |
| C88 | MutexExit.C88_counterexample | P |
| C89 | StdPool.C89_disjoint | P Q |
| C89 | StdPool.C89_no_bad_free | P Q |
| C89 | StdPool.C89_exact | P Q |
| C89 | StdPool.C89_release | P Q |
| C89 | StdPool.C89_blockSize | P Q |
| C89 | StdPool.C89_create | P Q |
| C89 | StdPool.C89_required_partial | P |
| C89 | StdPool.C89_required_counterexample | - |
| C89 | StdPool.C89_bound_counterexample | P |
| C89 | StdPool.C89_address_counterexample | - |
| C89 | StdPool.C89_destroy_counterexample | P |
| C90 | Race.C90_race_free_partial | P Q |
| C90 | Race.C90_only_handlers_partial | P Q |
| C90 | Race.C90_setters | P |
| C90 | Race.C90_mutex_partial | P C Q |
| C90 | Race.C90_undisciplined | P |
| C91 | Race.C91_callback_holds_nothing | P Q |
| C91 | Race.C91_no_deadlock | P C Q |
| C91 | Race.C91_no_cycle | P C Q |
| C91 | Race.C91_no_self_deadlock | P Q |
| C92 | TimerFactory.C92_no_deadlock_partial | P C Q |
| C92 | TimerFactory.C92_windows_deadlock | P C Q |
| C92 | TimerFactory.C92_self_destroy | P C Q |
| C93 | PoolRace.C93_race_free | P C Q |
| C93 | PoolRace.C93_no_use_after_destroy | P C Q |
| C94 | Init.C94_init_registers_partial | P |
| C94 | Init.C94_init_create_partial | P |
| C94 | Init.C94_itron_no_oneshot | P |
| C94 | Init.C94_range_partial | P Q |
| C94 | Init.C94_range_first_partial | P Q |
| C94 | Init.C94_range_fixed | P Q |
| C94 | Init.C94_factories_distinct | - |
| C94 | Init.C94_second_init_ignored | P Q |
| C94 | Init.C94_one_platform | P Q |
| C94 | Init.C94_two_platforms_mismatch | P Q |
| C95 | Refs.Vector.C95_vector_path_target | P C Q |
| C95 | Refs.Vector.C95_vector_read | P C Q |
| C95 | Refs.Vector.C95_vector_write | P C Q |
| C95 | Refs.Vector.C95_vector_copy | P C Q |
| C95 | Refs.Vector.C95_vector_step | P C Q |
| C95 | Refs.Vector.C95_vector_history | P C Q |
| C95 | Refs.Vector.C95_vector_safe | P C Q |
| C95 | Refs.Deque.C95_deque_path_target | P C Q |
| C95 | Refs.Deque.C95_deque_paths_distinct | P Q |
| C95 | Refs.Deque.C95_deque_read | P C Q |
| C95 | Refs.Deque.C95_deque_write | P C Q |
| C95 | Refs.Deque.C95_deque_copy | P C Q |
| C95 | Refs.Deque.C95_deque_step | P C Q |
| C95 | Refs.Deque.C95_deque_history | P C Q |
| C95 | Refs.Deque.C95_deque_safe | P C Q |
| C96 | DequeIter.C96_own_iterators | P Q |
| C96 | DequeIter.C96_equality | P Q |
| C96 | DequeIter.C96_default_iterator | P |
| C96 | DequeIter.C96_own_positions | P Q |
| C96 | DequeIter.C96_debug_null | P |
| C96 | DequeIter.C96_debug_mixed | P |
| C96 | DequeIter.C96_debug_foreign_position | P |
| C96 | DequeIter.C96_release_null_undefined | P |
| C97 | MessageQueueEvent.C97_refines | P C Q |
| C97 | MessageQueueEvent.C97_std | P C Q |
| C97 | MessageQueueEvent.C97_itron | P C Q |
| C97 | MessageQueueEvent.C97_std_stuck | P C Q |
| C97 | MessageQueueEvent.C97_itron_stuck | P C Q |
| C97 | MessageQueueEvent.C97_std_terminates | P C Q |
| C97 | MessageQueueEvent.C97_std_reaches | P C Q |
| C97 | MessageQueueEvent.C97_itron_terminates | P C Q |
| C97 | MessageQueueEvent.C97_itron_reaches | P C Q |
| C98 | Cost.C98_vector_call | P C Q |
| C98 | Cost.C98_deque_call | P C Q |
| C98 | Cost.C98_vector_history | P C Q |
| C98 | Cost.C98_deque_history | P C Q |
| C98 | Cost.C98_bounds | P C Q |
| C98 | Cost.C98_deque_ends | P Q |
| C99 | TestDouble.C99_lock_discipline | P Q |
| C99 | TestDouble.C99_signals | P Q |
| C99 | TestDouble.C99_send_not_locked | P |
| C99 | TestDouble.C99_send_room | P C Q |
| C99 | TestDouble.C99_send_full | P Q |
| C99 | TestDouble.C99_receive_not_locked | P |
| C99 | TestDouble.C99_receive_message | P C Q |
| C99 | TestDouble.C99_receive_empty | P C Q |
| C99 | TestDouble.C99_getSize | P Q |
| C99 | TestDouble.C99_history_partial | P C Q |
| C99 | TestDouble.C99_exact_partial | P C Q |
| C99 | TestDouble.C99_stub_full | P Q |
| C99 | TestDouble.C99_stub_empty | P C Q |
| C99 | TestDouble.C99_pool_destroy_partial | P C Q |
| C99 | TestDouble.C99_pool_destroy_undefined | P C Q |
