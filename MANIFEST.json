{
 "claims": [
  {
   "property": "C01",
   "status": "proved",
   "theorems": [
    "Verif.Props.Vector.C01_vector_refines_bounded_list",
    "Verif.Props.Vector.C01_vector_single_call"
   ],
   "note": "all histories, any capacity, word size and build mode"
  },
  {
   "property": "C02",
   "status": "proved",
   "theorems": [
    "Verif.Props.Vector.C02_vector_overflow_throws_and_changes_nothing",
    "Verif.Props.Vector.C02_vector_overflow_condition"
   ],
   "note": ""
  },
  {
   "property": "C03",
   "status": "proved",
   "theorems": [
    "Verif.Props.Vector.C03_vector_lifetimes_exact"
   ],
   "note": "includes histories in which element copies throw"
  },
  {
   "property": "C04",
   "status": "proved",
   "theorems": [
    "Verif.Props.Vector.C04_vector_at_exact"
   ],
   "note": ""
  },
  {
   "property": "C05",
   "status": "proved",
   "theorems": [
    "Verif.Props.Vector.C05_vector_basic_exception_safety",
    "Verif.Props.Vector.C05_vector_exceptions_propagate"
   ],
   "note": ""
  },
  {
   "property": "C06",
   "status": "partial",
   "theorems": [
    "Verif.Props.Vector.C06_vector_push_back_alias_partial",
    "Verif.Props.Vector.C06_vector_resize_alias_partial",
    "Verif.Props.Vector.C06_vector_insert_alias_before_partial",
    "Verif.Props.Vector.C06_vector_insert_alias_exact_partial",
    "Verif.Props.Vector.C06_vector_insert_alias_iff",
    "Verif.Props.Vector.C06_vector_assign_alias_ub",
    "Verif.Props.Vector.C06_vector_insert_alias_fails",
    "Verif.Props.Vector.C06_vector_assign_alias_fails"
   ],
   "note": "the full property is false of the code for insert (exactly when a different element has been moved to the place of the argument: C06_vector_insert_alias_iff) and for assign (always undefined behaviour: C06_vector_assign_alias_ub); push_back and resize are right; the value inserted is proved in every case"
  },
  {
   "property": "C07",
   "status": "proved",
   "theorems": [
    "Verif.Props.Vector.C07_vector_insert_position",
    "Verif.Props.Vector.C07_vector_erase_position"
   ],
   "note": ""
  },
  {
   "property": "C08",
   "status": "proved",
   "theorems": [
    "Verif.Props.Vector.C08_vector_copy_assign",
    "Verif.Props.Vector.C08_vector_equality"
   ],
   "note": ""
  },
  {
   "property": "C09",
   "status": "proved",
   "theorems": [
    "Verif.Props.Vector.C09_vector_debug_empty",
    "Verif.Props.Vector.C09_vector_debug_positions",
    "Verif.Props.Vector.C09_vector_debug_equals_release"
   ],
   "note": ""
  },
  {
   "property": "C10",
   "status": "proved",
   "theorems": [
    "Verif.Props.Deque.C10_deque_single_call",
    "Verif.Props.Deque.C10_deque_refines_bounded_list",
    "Verif.Props.Deque.C10_deque_fresh"
   ],
   "note": "all histories, any starting rotation, capacity, word size and build mode"
  },
  {
   "property": "C100",
   "status": "proved",
   "theorems": [
    "Verif.Props.ThreadPoolQueue.C100_refines",
    "Verif.Props.ThreadPoolQueue.C100_filled",
    "Verif.Props.ThreadPoolQueue.C100_mq",
    "Verif.Props.ThreadPoolQueue.C100_std",
    "Verif.Props.ThreadPoolQueue.C100_itron",
    "Verif.Props.ThreadPoolQueue.C100_mq_stuck",
    "Verif.Props.ThreadPoolQueue.C100_std_stuck",
    "Verif.Props.ThreadPoolQueue.C100_itron_stuck",
    "Verif.Props.ThreadPoolQueue.C100_mq_terminates",
    "Verif.Props.ThreadPoolQueue.C100_mq_reaches",
    "Verif.Props.ThreadPoolQueue.C100_std_terminates",
    "Verif.Props.ThreadPoolQueue.C100_std_reaches",
    "Verif.Props.ThreadPoolQueue.C100_itron_terminates",
    "Verif.Props.ThreadPoolQueue.C100_itron_reaches"
   ],
   "note": "pool on the queue program (atomic flag, C++11 flag, ITRON flag) refines the pool on an atomic FIFO queue; safety and deadlock theorems transferred; executions without platform errors; without new calls the composition comes to rest within an explicit number of steps and can always get there"
  },
  {
   "property": "C101",
   "status": "partial",
   "theorems": [
    "Verif.Props.ThreadPriority.C101_current",
    "Verif.Props.ThreadPriority.C101_initial",
    "Verif.Props.ThreadPriority.C101_given",
    "Verif.Props.ThreadPriority.C101_inherit_partial",
    "Verif.Props.ThreadPriority.C101_inherit_serial_partial",
    "Verif.Props.ThreadPriority.C101_range",
    "Verif.Props.ThreadPriority.C101_posix",
    "Verif.Props.ThreadPriority.C101_windows",
    "Verif.Props.ThreadPriority.C101_inherit_counterexample",
    "Verif.Props.ThreadPriority.C101_stale"
   ],
   "note": "everything is proved; the clause that INHERIT_PRIORITY means the caller's priority needs that -1 is not in the range of the factory (C101_inherit_counterexample: otherwise it is taken for the priority -1); C101_stale shows that the value can be one the caller no longer has when it is stored"
  },
  {
   "property": "C102",
   "status": "partial",
   "theorems": [
    "Verif.Props.ThreadPoolTime.C102_bound_partial",
    "Verif.Props.ThreadPoolTime.C102_wait",
    "Verif.Props.ThreadPoolTime.C102_polling",
    "Verif.Props.ThreadPoolTime.C102_notEarly",
    "Verif.Props.ThreadPoolTime.C102_counterexample",
    "Verif.Props.ThreadPoolTime.C102_gives_up",
    "Verif.Props.ThreadPoolTime.C102_wait_tight"
   ],
   "note": "timedWait and polling hold; timedStart keeps only (k+1) times its timeout (k the queue's factor, 2 for MessageQueue): counterexample for every timeout"
  },
  {
   "property": "C103",
   "status": "partial",
   "theorems": [
    "Verif.Props.ThreadPoolErr.C103_rounds",
    "Verif.Props.ThreadPoolErr.C103_once",
    "Verif.Props.ThreadPoolErr.C103_max",
    "Verif.Props.ThreadPoolErr.C103_ok",
    "Verif.Props.ThreadPoolErr.C103_notOk",
    "Verif.Props.ThreadPoolErr.C103_error",
    "Verif.Props.ThreadPoolErr.C103_reported",
    "Verif.Props.ThreadPoolErr.C103_wait_partial",
    "Verif.Props.ThreadPoolErr.C103_release_partial",
    "Verif.Props.ThreadPoolErr.C103_invalid",
    "Verif.Props.ThreadPoolErr.C103_destroy_partial",
    "Verif.Props.ThreadPoolErr.C103_destroy_count",
    "Verif.Props.ThreadPoolErr.C103_available_partial",
    "Verif.Props.ThreadPoolErr.C103_noError",
    "Verif.Props.ThreadPoolErr.C103_release_counterexample",
    "Verif.Props.ThreadPoolErr.C103_wait_counterexample",
    "Verif.Props.ThreadPoolErr.C103_available_counterexample",
    "Verif.Props.ThreadPoolErr.C103_destroy_counterexample",
    "Verif.Props.ThreadPoolErr.C103_notify_counterexample"
   ],
   "note": "Errors are reported and tasks are run once whatever fails (C103_rounds, _once, _max, _ok, _notOk, _error, _reported, _invalid, _noError; _destroy_count bounds the tasks destroy leaves behind by the number of its failed waits); the claims on wait, release, destroy and availability hold only if nothing fails whose result is ignored (the _partial theorems), the counterexamples show that they fail otherwise"
  },
  {
   "property": "C104",
   "status": "proved",
   "theorems": [
    "Verif.Props.EventFlagTime.C104_timeout",
    "Verif.Props.EventFlagTime.C104_prompt"
   ],
   "note": "timed transition system; deadline computed when m_mutex has been locked; executing code takes no time"
  },
  {
   "property": "C105",
   "status": "proved",
   "theorems": [
    "Verif.Props.ThreadTime.C105_timeout",
    "Verif.Props.ThreadTime.C105_prompt"
   ],
   "note": "timed transition system; deadline computed when m_mutex has been locked; executing library code takes no time, the Runnable takes any time"
  },
  {
   "property": "C106",
   "status": "proved",
   "theorems": [
    "Verif.Props.NoExceptions.C106_vector_handler_that_stops",
    "Verif.Props.NoExceptions.C106_deque_handler_that_stops",
    "Verif.Props.NoExceptions.C106_builds_agree",
    "Verif.Props.NoExceptions.C106_array_handler_that_stops",
    "Verif.Props.NoExceptions.C106_vector_fitting_calls_need_no_handler",
    "Verif.Props.NoExceptions.C106_deque_fitting_calls_need_no_handler",
    "Verif.Props.NoExceptions.C106_vector_returning_handler_is_undefined",
    "Verif.Props.NoExceptions.C106_array_returning_handler_is_undefined",
    "Verif.Props.NoExceptions.C106_deque_push_back_returning_handler_empties",
    "Verif.Props.NoExceptions.C106_deque_push_front_returning_handler_empties",
    "Verif.Props.NoExceptions.C106_deque_at_returning_handler",
    "Verif.Props.NoExceptions.C106_returning_handler_disables_debug_checks"
   ],
   "note": "for a handler that does not return, as AssertHandler requires; necessity of that provision proved too"
  },
  {
   "property": "C107",
   "status": "partial",
   "theorems": [
    "Verif.Props.ItronRace.C107_race_free_partial",
    "Verif.Props.ItronRace.C107_only_setters_partial",
    "Verif.Props.ItronRace.C107_handler",
    "Verif.Props.ItronRace.C107_mutex",
    "Verif.Props.ItronRace.C107_exactly",
    "Verif.Props.ItronRace.C107_timer_name",
    "Verif.Props.ItronRace.C107_setters",
    "Verif.Props.ItronRace.C107_mutex_count"
   ],
   "note": "Race freedom proved exactly: C107_exactly says that without the lock-free setters there is no race iff the needed factory mutexes exist and handlers call only the safe functions; the full claim fails (counterexamples C107_handler, C107_mutex, C107_timer_name, C107_setters)."
  },
  {
   "property": "C108",
   "status": "proved",
   "theorems": [
    "Verif.Props.ItronRace.C108_callback_holds_nothing",
    "Verif.Props.ItronRace.C108_no_deadlock",
    "Verif.Props.ItronRace.C108_no_self_lock",
    "Verif.Props.ItronRace.C108_no_cycle"
   ],
   "note": "All contexts, all subsets of mutexes, with the setters."
  },
  {
   "property": "C109",
   "status": "proved",
   "theorems": [
    "Verif.Props.ThreadPoolFlag.C109_refines",
    "Verif.Props.ThreadPoolFlag.C109_std",
    "Verif.Props.ThreadPoolFlag.C109_itron",
    "Verif.Props.ThreadPoolFlag.C109_std_free",
    "Verif.Props.ThreadPoolFlag.C109_itron_free",
    "Verif.Props.ThreadPoolFlag.C109_std_stuck",
    "Verif.Props.ThreadPoolFlag.C109_itron_stuck",
    "Verif.Props.ThreadPoolFlag.C109_std_terminates",
    "Verif.Props.ThreadPoolFlag.C109_std_reaches",
    "Verif.Props.ThreadPoolFlag.C109_itron_terminates",
    "Verif.Props.ThreadPoolFlag.C109_itron_reaches"
   ],
   "note": "whole composition pool + queue + queue's event flag + one event flag per thread; executions in which the platform reports no error (C94/C99 treat errors); without new calls and spurious wake-ups the composition comes to rest within an explicit number of steps and can always get there"
  },
  {
   "property": "C11",
   "status": "proved",
   "theorems": [
    "Verif.Props.Deque.C11_deque_overflow_throws_and_changes_nothing",
    "Verif.Props.Deque.C11_deque_push_front_condition"
   ],
   "note": ""
  },
  {
   "property": "C110",
   "status": "partial",
   "theorems": [
    "Verif.Props.MutexHandler.C110_reported",
    "Verif.Props.MutexHandler.C110_returns",
    "Verif.Props.MutexHandler.C110_tasks_partial",
    "Verif.Props.MutexHandler.C110_exclusion_partial",
    "Verif.Props.MutexHandler.C110_steals",
    "Verif.Props.MutexHandler.C110_unlock_counterexample",
    "Verif.Props.MutexHandler.C110_lock_codes",
    "Verif.Props.MutexHandler.C110_flag_codes",
    "Verif.Props.MutexHandler.C110_unlock_codes",
    "Verif.Props.MutexHandler.C110_thread_codes_partial",
    "Verif.Props.MutexHandler.C110_thread_counterexample"
   ],
   "note": "Handlers are refused and reported and harmless if get_tid refuses to work in handlers or no handler unlocks (C110_reported, _returns, _tasks_partial, _exclusion_partial); otherwise an unlock in a handler takes a lock of the interrupted task away (C110_steals, C110_unlock_counterexample). Error codes are right but for Thread::wait (C110_thread_counterexample)."
  },
  {
   "property": "C111",
   "status": "proved",
   "theorems": [
    "Verif.Props.ThreadPoolThread.C111_refines",
    "Verif.Props.ThreadPoolThread.C111_std",
    "Verif.Props.ThreadPoolThread.C111_std_calls",
    "Verif.Props.ThreadPoolThread.C111_std_free",
    "Verif.Props.ThreadPoolThread.C111_std_stuck"
   ],
   "note": "Composition of the pool's code with a thread program; forward simulation of the pool on atomic threads for every linearizable thread; instantiated with the StdCpp/Posix/Windows thread model (C55). The queue and the flags are atomic here (C100, C109 put their implementations in)."
  },
  {
   "property": "C112",
   "status": "proved",
   "theorems": [
    "Verif.Props.ThreadPoolItron.C112_correct",
    "Verif.Props.ThreadPoolItron.C112_calls",
    "Verif.Props.ThreadPoolItron.C112_free",
    "Verif.Props.ThreadPoolItron.C112_stuck"
   ],
   "note": "Instance of the simulation of C111 with the ITRON thread model (C75): what the pool sees of an ITRON thread is linearizable, whoever else uses isFinished and the priorities (C112_correct); rules, freeing and deadlock when only the pool uses its threads. The pool's own setPriority, the queue and the flags are atomic here."
  },
  {
   "property": "C113",
   "status": "partial",
   "theorems": [
    "Verif.Props.MessageQueueErr.C113_queue_partial",
    "Verif.Props.MessageQueueErr.C113_ring_partial",
    "Verif.Props.MessageQueueErr.C113_stuck_partial",
    "Verif.Props.MessageQueueErr.C113_reset_undefined",
    "Verif.Props.MessageQueueErr.C113_signal_hangs"
   ],
   "note": "safety proved for all failures of locks, waits and sets; a hang needs that the latest attempt to signal failed (C113_stuck_partial). False in full: a failing reset leads to a receive on an empty queue that reads a dead slot (C113_reset_undefined), a failing set leaves a receive waiting although a message is there (C113_signal_hangs)"
  },
  {
   "property": "C114",
   "status": "proved",
   "theorems": [
    "Verif.Props.RaceWait.C114_holds",
    "Verif.Props.RaceWait.C114_out_of_the_way",
    "Verif.Props.RaceWait.C114_owner_runs",
    "Verif.Props.RaceWait.C114_sender",
    "Verif.Props.RaceWait.C114_receiver",
    "Verif.Props.RaceWait.C114_windows_destroy"
   ],
   "note": "Which locks are held while waiting, exactly: C114_holds; the exceptions occur (C114_sender, C114_receiver, C114_windows_destroy). Access skeletons: conditions are replaced by either way, so the exceptions are those of the skeletons; construction and deletion show only their locks."
  },
  {
   "property": "C12",
   "status": "proved",
   "theorems": [
    "Verif.Props.Deque.C12_deque_lifetimes_exact"
   ],
   "note": ""
  },
  {
   "property": "C13",
   "status": "proved",
   "theorems": [
    "Verif.Props.Deque.C13_deque_at_exact"
   ],
   "note": ""
  },
  {
   "property": "C14",
   "status": "proved",
   "theorems": [
    "Verif.Props.Deque.C14_deque_basic_exception_safety",
    "Verif.Props.Deque.C14_deque_exceptions_propagate"
   ],
   "note": ""
  },
  {
   "property": "C15",
   "status": "partial",
   "theorems": [
    "Verif.Props.Deque.C15_deque_push_alias_partial",
    "Verif.Props.Deque.C15_deque_resize_alias_partial",
    "Verif.Props.Deque.C15_deque_insert_alias_other_side_partial",
    "Verif.Props.Deque.C15_deque_insert_alias_exact_partial",
    "Verif.Props.Deque.C15_deque_insert_alias_iff",
    "Verif.Props.Deque.C15_deque_assign_alias_ub",
    "Verif.Props.Deque.C15_deque_insert_alias_fails",
    "Verif.Props.Deque.C15_deque_assign_alias_fails"
   ],
   "note": "false of the code for insert (exactly when another element has been moved to the place of the argument: C15_deque_insert_alias_iff) and for assign (always undefined behaviour); proved for push_back, push_front and resize; the value inserted is proved in every case"
  },
  {
   "property": "C16",
   "status": "proved",
   "theorems": [
    "Verif.Props.Deque.C16_deque_iterators_random_access"
   ],
   "note": ""
  },
  {
   "property": "C17",
   "status": "proved",
   "theorems": [
    "Verif.Props.Deque.C17_deque_end_ops_keep_addresses"
   ],
   "note": ""
  },
  {
   "property": "C18",
   "status": "proved",
   "theorems": [
    "Verif.Props.Deque.C18_deque_insert_moves_one_side",
    "Verif.Props.Deque.C18_deque_erase_moves_one_side"
   ],
   "note": ""
  },
  {
   "property": "C19",
   "status": "proved",
   "theorems": [
    "Verif.Props.Deque.C19_deque_debug_empty",
    "Verif.Props.Deque.C19_deque_debug_positions",
    "Verif.Props.Deque.C19_deque_debug_equals_release"
   ],
   "note": ""
  },
  {
   "property": "C20",
   "status": "proved",
   "theorems": [
    "Verif.Props.Deque.C20_deque_copy_assign",
    "Verif.Props.Deque.C20_deque_equality"
   ],
   "note": ""
  },
  {
   "property": "C21",
   "status": "proved",
   "theorems": [
    "Verif.Props.Prealloc.C21_init_binds_once",
    "Verif.Props.Prealloc.C21_later_inits_have_no_effect",
    "Verif.Props.Prealloc.C21_vector_capacity",
    "Verif.Props.Prealloc.C21_deque_capacity"
   ],
   "note": ""
  },
  {
   "property": "C22",
   "status": "partial",
   "theorems": [
    "Verif.Props.Prealloc.C22_deque_push_stays_in_buffer_partial",
    "Verif.Props.Prealloc.C22_deque_small_buffer_overflows"
   ],
   "note": "proved for buffers of at least sizeof(T) bytes; false below, with a general counterexample"
  },
  {
   "property": "C23",
   "status": "proved",
   "theorems": [
    "Verif.Props.Array.C23_array_access",
    "Verif.Props.Array.C23_array_assign_element",
    "Verif.Props.Array.C23_array_fill",
    "Verif.Props.Array.C23_array_equality"
   ],
   "note": ""
  },
  {
   "property": "C24",
   "status": "proved",
   "theorems": [
    "Verif.Props.BitPattern.C24_bitpattern_is_a_set",
    "Verif.Props.BitPattern.C24_bitpattern_histories",
    "Verif.Props.BitPattern.C24_bitpattern_construct"
   ],
   "note": ""
  },
  {
   "property": "C25",
   "status": "proved",
   "theorems": [
    "Verif.Props.BitPattern.C25_bitpattern_promotion_immune",
    "Verif.Props.BitPattern.C25_bitpattern_debug_range"
   ],
   "note": ""
  },
  {
   "property": "C26",
   "status": "proved",
   "theorems": [
    "Verif.Props.IntrusiveList.C26_history",
    "Verif.Props.IntrusiveList.C26_observers"
   ],
   "note": ""
  },
  {
   "property": "C27",
   "status": "proved",
   "theorems": [
    "Verif.Props.IntrusiveList.C27_splice_range",
    "Verif.Props.IntrusiveList.C27_splice_one",
    "Verif.Props.IntrusiveList.C27_splice_all"
   ],
   "note": ""
  },
  {
   "property": "C28",
   "status": "proved",
   "theorems": [
    "Verif.Props.IntrusiveList.C28_swap",
    "Verif.Props.IntrusiveList.C28_self"
   ],
   "note": ""
  },
  {
   "property": "C29",
   "status": "proved",
   "theorems": [
    "Verif.Props.IntrusiveList.C29_frame",
    "Verif.Props.IntrusiveList.C29_other_lists",
    "Verif.Props.IntrusiveList.C29_iterators"
   ],
   "note": ""
  },
  {
   "property": "C30",
   "status": "proved",
   "theorems": [
    "Verif.Props.IntrusiveList.C30_empty",
    "Verif.Props.IntrusiveList.C30_null",
    "Verif.Props.IntrusiveList.C30_splice",
    "Verif.Props.IntrusiveList.C30_release_agrees",
    "Verif.Props.IntrusiveList.C30_in_contract"
   ],
   "note": ""
  },
  {
   "property": "C31",
   "status": "proved",
   "theorems": [
    "Verif.Props.Assertion.C31_message",
    "Verif.Props.Assertion.C31_in_bounds",
    "Verif.Props.Assertion.C31_buffer",
    "Verif.Props.Assertion.C31_untruncated"
   ],
   "note": ""
  },
  {
   "property": "C32",
   "status": "proved",
   "theorems": [
    "Verif.Props.Assertion.C32_true_no_effect",
    "Verif.Props.Assertion.C32_false",
    "Verif.Props.Assertion.C32_no_fall_through",
    "Verif.Props.Assertion.C32_debug",
    "Verif.Props.Assertion.C32_handler_last"
   ],
   "note": ""
  },
  {
   "property": "C33",
   "status": "proved",
   "theorems": [
    "Verif.Props.Priority.C33_clamped",
    "Verif.Props.Priority.C33_defined",
    "Verif.Props.Priority.C33_steps",
    "Verif.Props.Priority.C33_directed"
   ],
   "note": ""
  },
  {
   "property": "C34",
   "status": "partial",
   "theorems": [
    "Verif.Props.Priority.C34_full_false",
    "Verif.Props.Priority.C34_stdCpp",
    "Verif.Props.Priority.C34_normal_partial",
    "Verif.Props.Priority.C34_middle_partial"
   ],
   "note": "C34_full_false: documented strict inequality fails when max-min < 2 (StdCpp platform: all priorities 0). Proved: strict when max-min>=2, inclusive always, middle within 1."
  },
  {
   "property": "C35",
   "status": "partial",
   "theorems": [
    "Verif.Props.Priority.C35_total_partial",
    "Verif.Props.Priority.C35_monotone_partial",
    "Verif.Props.Priority.C35_exact_partial",
    "Verif.Props.Priority.C35_full_false",
    "Verif.Props.Priority.C35_setPriority_partial"
   ],
   "note": "Totality and exact map proved for all ranges; monotonicity only when default priority <= SCHED_RR minimum (C35_full_false gives the counterexample: factory created by a real-time thread)."
  },
  {
   "property": "C36",
   "status": "proved",
   "theorems": [
    "Verif.Props.Priority.C36_windows",
    "Verif.Props.Priority.C36_setPriority"
   ],
   "note": ""
  },
  {
   "property": "C37",
   "status": "proved",
   "theorems": [
    "Verif.Props.Mutex.C37_exclusion",
    "Verif.Props.Mutex.C37_busy",
    "Verif.Props.Mutex.C37_timedOut_only_if_busy",
    "Verif.Props.Mutex.C37_recursion",
    "Verif.Props.Mutex.C37_released",
    "Verif.Props.Mutex.C37_relock",
    "Verif.Props.Mutex.C37_results"
   ],
   "note": ""
  },
  {
   "property": "C38",
   "status": "partial",
   "theorems": [
    "Verif.Props.Mutex.C38_full_false",
    "Verif.Props.Mutex.C38_always_ub",
    "Verif.Props.Mutex.C38_free_partial"
   ],
   "note": "Full claim is false: unlock by a non-holder while another thread holds decrements the holder's count (witness C38_full_false). Proved: NotLocked with unchanged state when nobody holds the mutex."
  },
  {
   "property": "C39",
   "status": "proved",
   "theorems": [
    "Verif.Props.Mutex.C39_exclusion",
    "Verif.Props.Mutex.C39_recursion",
    "Verif.Props.Mutex.C39_unlock_holder",
    "Verif.Props.Mutex.C39_unlock_nonholder",
    "Verif.Props.Mutex.C39_unlock_result",
    "Verif.Props.Mutex.C39_busy",
    "Verif.Props.Mutex.C39_granted",
    "Verif.Props.Mutex.C39_results"
   ],
   "note": ""
  },
  {
   "property": "C40",
   "status": "proved",
   "theorems": [
    "Verif.Props.Mutex.C40_calls",
    "Verif.Props.Mutex.C40_balanced",
    "Verif.Props.Mutex.C40_adopt",
    "Verif.Props.Mutex.C40_failed_lock"
   ],
   "note": ""
  },
  {
   "property": "C41",
   "status": "proved",
   "theorems": [
    "Verif.Props.EventFlag.C41_pattern",
    "Verif.Props.EventFlag.C41_itron",
    "Verif.Props.EventFlag.C41_get",
    "Verif.Props.EventFlag.C41_order"
   ],
   "note": ""
  },
  {
   "property": "C42",
   "status": "proved",
   "theorems": [
    "Verif.Props.EventFlag.C42_linearizable",
    "Verif.Props.EventFlag.C42_ok",
    "Verif.Props.EventFlag.C42_timedOut",
    "Verif.Props.EventFlag.C42_autoReset_once"
   ],
   "note": ""
  },
  {
   "property": "C43",
   "status": "proved",
   "theorems": [
    "Verif.Props.EventFlag.C43_stuck",
    "Verif.Props.EventFlag.C43_no_lost_wakeup",
    "Verif.Props.EventFlag.C43_alone",
    "Verif.Props.EventFlag.C43_set_wakes"
   ],
   "note": ""
  },
  {
   "property": "C44",
   "status": "proved",
   "theorems": [
    "Verif.Props.EventFlag.C44_invalid",
    "Verif.Props.EventFlag.C44_invalid_itron",
    "Verif.Props.EventFlag.C44_only"
   ],
   "note": ""
  },
  {
   "property": "C45",
   "status": "proved",
   "theorems": [
    "Verif.Props.EventFlag.C45_refines",
    "Verif.Props.EventFlag.C45_stuck"
   ],
   "note": ""
  },
  {
   "property": "C46",
   "status": "proved",
   "theorems": [
    "Verif.Props.MessageQueue.C46_linearizable",
    "Verif.Props.MessageQueue.C46_fifo",
    "Verif.Props.MessageQueue.C46_order"
   ],
   "note": ""
  },
  {
   "property": "C47",
   "status": "proved",
   "theorems": [
    "Verif.Props.MessageQueue.C47_capacity"
   ],
   "note": ""
  },
  {
   "property": "C48",
   "status": "proved",
   "theorems": [
    "Verif.Props.MessageQueue.C48_ring"
   ],
   "note": ""
  },
  {
   "property": "C49",
   "status": "proved",
   "theorems": [
    "Verif.Props.MessageQueue.C49_no_effect",
    "Verif.Props.MessageQueue.C49_reason",
    "Verif.Props.MessageQueue.C49_markers"
   ],
   "note": ""
  },
  {
   "property": "C50",
   "status": "proved",
   "theorems": [
    "Verif.Props.MessageQueue.C50_stuck",
    "Verif.Props.MessageQueue.C50_terminates",
    "Verif.Props.MessageQueue.C50_reaches"
   ],
   "note": ""
  },
  {
   "property": "C51",
   "status": "partial",
   "theorems": [
    "Verif.Props.MessageQueueLife.C51_room_partial",
    "Verif.Props.MessageQueueLife.C51_counterexample"
   ],
   "note": "False in general: maxSize + 1 and sizeof(T) * (maxSize + 1) wrap around in size_t (C51_counterexample for every word size). Proved when the byte count does not overflow."
  },
  {
   "property": "C52",
   "status": "proved",
   "theorems": [
    "Verif.Props.MessageQueueLife.C52_create"
   ],
   "note": ""
  },
  {
   "property": "C53",
   "status": "partial",
   "theorems": [
    "Verif.Props.MessageQueueLife.C53_destroy_partial",
    "Verif.Props.MessageQueueLife.C53_counterexample"
   ],
   "note": "False in general: ~RingBuf() is empty, queued messages are leaked (C53_counterexample). Proved: the survivors are exactly the queued messages, so nothing survives when the queue is empty."
  },
  {
   "property": "C54",
   "status": "partial",
   "theorems": [
    "Verif.Props.MessageQueueTime.C54_twice_partial",
    "Verif.Props.MessageQueueTime.C54_counterexample"
   ],
   "note": "False in general: the full timeout is given twice, to the lock and to the event flag; 2*tmout is attained (C54_counterexample). Proved: 2*tmout is an upper bound."
  },
  {
   "property": "C55",
   "status": "proved",
   "theorems": [
    "Verif.Props.Thread.C55_linearizable",
    "Verif.Props.Thread.C55_counts",
    "Verif.Props.Thread.C55_start"
   ],
   "note": ""
  },
  {
   "property": "C56",
   "status": "proved",
   "theorems": [
    "Verif.Props.Thread.C56_ok",
    "Verif.Props.Thread.C56_timedOut",
    "Verif.Props.Thread.C56_isFinished",
    "Verif.Props.Thread.C56_stuck",
    "Verif.Props.Thread.C56_terminates"
   ],
   "note": ""
  },
  {
   "property": "C57",
   "status": "proved",
   "theorems": [
    "Verif.Props.Thread.C57_destroyed",
    "Verif.Props.Thread.C57_overlap_lost_run",
    "Verif.Props.Thread.C57_overlap_hang"
   ],
   "note": ""
  },
  {
   "property": "C58",
   "status": "proved",
   "theorems": [
    "Verif.Props.Main.C58_returns",
    "Verif.Props.Main.C58_normal",
    "Verif.Props.Main.C58_thread",
    "Verif.Props.Main.C58_timer",
    "Verif.Props.Main.C58_stop_throws",
    "Verif.Props.Main.C58_null"
   ],
   "note": ""
  },
  {
   "property": "C59",
   "status": "proved",
   "theorems": [
    "Verif.Props.Timer.C59_linearizable",
    "Verif.Props.Timer.C59_once",
    "Verif.Props.Timer.C59_per_start"
   ],
   "note": ""
  },
  {
   "property": "C60",
   "status": "partial",
   "theorems": [
    "Verif.Props.Timer.C60_isStarted",
    "Verif.Props.Timer.C60_effective",
    "Verif.Props.Timer.C60_stop_partial",
    "Verif.Props.Timer.C60_return_partial",
    "Verif.Props.Timer.C60_counterexample"
   ],
   "note": "in general false: C60_counterexample gives, for both timer kinds, an execution in which a callback begins after stop() returned (the timer thread had decided on it before)"
  },
  {
   "property": "C61",
   "status": "partial",
   "theorems": [
    "Verif.Props.Timer.C61_periodic_partial",
    "Verif.Props.Timer.C61_oneShot_partial",
    "Verif.Props.Timer.C61_counterexample",
    "Verif.Props.Timer.C61_self_counterexample",
    "Verif.Props.TimerReturn.C61_oneShot_noLateStop_partial",
    "Verif.Props.TimerReturn.C61_missed"
   ],
   "note": "in general false (C61_counterexample: one-shot start() hangs after a stop() during the callback because m_stopped is set without notify; C61_self_counterexample: stop();start() in the callback); proved for serial clients: always for periodic timers; for one-shot timers whenever no stop() took effect between a callback becoming due and its end (C61_oneShot_noLateStop_partial), and if the timer finishes while start() sleeps it hangs for sure (C61_missed)"
  },
  {
   "property": "C62",
   "status": "partial",
   "theorems": [
    "Verif.Props.Timer.C62_periodic_partial",
    "Verif.Props.Timer.C62_oneShot_partial",
    "Verif.Props.Timer.C62_counterexample",
    "Verif.Props.Timer.C62_two_counterexample",
    "Verif.Props.TimerReturn.C62_oneShot_noRun_partial",
    "Verif.Props.TimerReturn.C62_missed"
   ],
   "note": "in general false (C62_counterexample, C62_two_counterexample); proved for serial clients: always for periodic timers; for one-shot timers unless a whole run (arming to finish) of the timer falls into the call (C62_oneShot_noRun_partial); if the timer finishes after stop() was notified and before it got the mutex, it hangs until the next start (C62_missed)"
  },
  {
   "property": "C63",
   "status": "proved",
   "theorems": [
    "Verif.Props.TimerTime.C63_callback",
    "Verif.Props.TimerTime.C63_never",
    "Verif.Props.TimerTime.C63_repeats"
   ],
   "note": ""
  },
  {
   "property": "C64",
   "status": "proved",
   "theorems": [
    "Verif.Props.ThreadPool.C64_rounds",
    "Verif.Props.ThreadPool.C64_ok",
    "Verif.Props.ThreadPool.C64_error",
    "Verif.Props.ThreadPool.C64_source",
    "Verif.Props.ThreadPool.C64_once",
    "Verif.Props.ThreadPool.C64_atMost",
    "Verif.Props.ThreadPool.C64_runs"
   ],
   "note": ""
  },
  {
   "property": "C65",
   "status": "proved",
   "theorems": [
    "Verif.Props.ThreadPool.C65_one",
    "Verif.Props.ThreadPool.C65_max"
   ],
   "note": ""
  },
  {
   "property": "C66",
   "status": "proved",
   "theorems": [
    "Verif.Props.ThreadPoolGuard.C66_life",
    "Verif.Props.ThreadPoolGuard.C66_ok",
    "Verif.Props.ThreadPoolGuard.C66_results",
    "Verif.Props.ThreadPoolGuard.C66_prompt",
    "Verif.Props.ThreadPoolGuard.C66_release",
    "Verif.Props.ThreadPoolGuard.C66_once",
    "Verif.Props.ThreadPoolGuard.C66_valid",
    "Verif.Props.ThreadPoolGuard.C66_exclusive",
    "Verif.Props.ThreadPoolGuard.C66_releases",
    "Verif.Props.ThreadPoolGuard.C66_waits"
   ],
   "note": ""
  },
  {
   "property": "C67",
   "status": "partial",
   "theorems": [
    "Verif.Props.ThreadPoolGuard.C67_available_partial",
    "Verif.Props.ThreadPoolGuard.C67_drop",
    "Verif.Props.ThreadPoolGuard.C67_forever_partial",
    "Verif.Props.ThreadPoolGuard.C67_counterexample",
    "Verif.Props.ThreadPoolMore.C67_capacity_partial"
   ],
   "note": "As stated false (C67_counterexample): a tryStart/timedStart that takes a runner from the queue before its thread is finished and times out drops it (ThreadPool.cpp:194-197). Proved: exactly the dropped threads are missing; no loss if starts have no timeout; C67_drop says when a drop happens."
  },
  {
   "property": "C68",
   "status": "proved",
   "theorems": [
    "Verif.Props.ThreadPoolGuard.C68_after",
    "Verif.Props.ThreadPoolGuard.C68_handler"
   ],
   "note": ""
  },
  {
   "property": "C69",
   "status": "partial",
   "theorems": [
    "Verif.Props.ThreadPoolCreate.C69_create_returns_partial",
    "Verif.Props.ThreadPoolCreate.C69_null_iff_partial",
    "Verif.Props.ThreadPoolCreate.C69_create_fails_partial",
    "Verif.Props.ThreadPoolCreate.C69_create_succeeds_partial",
    "Verif.Props.ThreadPoolCreate.C69_destroy_partial",
    "Verif.Props.ThreadPoolCreate.C69_destroy_null",
    "Verif.Props.ThreadPoolCreate.C69_counterexample",
    "Verif.Props.ThreadPoolCreate.C69_lost_thread"
   ],
   "note": "Missing: maxThreads for which sizeof(Thread*)*maxThreads overflows size_t; there an exception escapes from create and everything obtained is lost (C69_counterexample). Also shown: a pool that has lost a thread (C67) is not released completely (C69_lost_thread)."
  },
  {
   "property": "C70",
   "status": "partial",
   "theorems": [
    "Verif.Props.ThreadPoolGuard.C70_tasks",
    "Verif.Props.ThreadPoolGuard.C70_threads_partial",
    "Verif.Props.ThreadPoolGuard.C70_returns",
    "Verif.Props.ThreadPoolMore.C70_counterexample"
   ],
   "note": "The first half (all tasks over, all threads finished) is proved in full; threads dropped (C67) or held by an unreleased guard are not destroyed (C70_counterexample)."
  },
  {
   "property": "C71",
   "status": "proved",
   "theorems": [
    "Verif.Props.ThreadPoolGuard.C71_null",
    "Verif.Props.ThreadPoolGuard.C71_untouched"
   ],
   "note": ""
  },
  {
   "property": "C72",
   "status": "partial",
   "theorems": [
    "Verif.Props.ItronPool.C72_exclusive",
    "Verif.Props.ItronPool.C72_create",
    "Verif.Props.ItronPool.C72_reusable",
    "Verif.Props.ItronPool.C72_blockSize",
    "Verif.Props.ItronPool.C72_fresh",
    "Verif.Props.ItronPool.C72_capacity_partial",
    "Verif.Props.ItronPool.C72_count",
    "Verif.Props.ItronPool.C72_no_pool",
    "Verif.Props.ItronPool.C72_dealloc_null",
    "Verif.Props.ItronPool.C72_total_create",
    "Verif.Props.ItronPool.C72_counterexample"
   ],
   "note": "Everything is proved for every history except the capacity clause, which needs a kernel whose TSZ_MPF has no per-pool overhead (C72_counterexample shows one where it fails); C72_count gives the exact capacity in general."
  },
  {
   "property": "C73",
   "status": "proved",
   "theorems": [
    "Verif.Props.Fronts.C73_no_factory",
    "Verif.Props.Fronts.C73_create",
    "Verif.Props.Fronts.C73_rejects",
    "Verif.Props.Fronts.C73_destroy_nothing",
    "Verif.Props.Fronts.C73_destroy",
    "Verif.Props.Fronts.C73_history"
   ],
   "note": ""
  },
  {
   "property": "C74",
   "status": "proved",
   "theorems": [
    "Verif.Props.ItronThreadTable.C74_current",
    "Verif.Props.ItronThreadTable.C74_fresh",
    "Verif.Props.ItronThreadTable.C74_capacity",
    "Verif.Props.ItronThreadTable.C74_destroy",
    "Verif.Props.ItronThreadTable.C74_no_leak",
    "Verif.Props.ItronThreadTable.C74_foreign",
    "Verif.Props.ItronThreadTable.C74_create_rollback",
    "Verif.Props.ItronThreadTable.C74_create_iff"
   ],
   "note": "atomic steps under the factory mutex; kernel by contract"
  },
  {
   "property": "C75",
   "status": "proved",
   "theorems": [
    "Verif.Props.ItronThread.C75_linearizable",
    "Verif.Props.ItronThread.C75_counts",
    "Verif.Props.ItronThread.C75_start",
    "Verif.Props.ItronThread.C75_ok",
    "Verif.Props.ItronThread.C75_isFinished",
    "Verif.Props.ItronThread.C75_timedOut",
    "Verif.Props.ItronThread.C75_run_priority",
    "Verif.Props.ItronThread.C75_getPriority",
    "Verif.Props.ItronThread.C75_base_priority",
    "Verif.Props.ItronThread.C75_destroyed",
    "Verif.Props.ItronThread.C75_dormant"
   ],
   "note": ""
  },
  {
   "property": "C76",
   "status": "proved",
   "theorems": [
    "Verif.Props.Timer.C76_returns",
    "Verif.Props.Timer.C76_destroyed"
   ],
   "note": ""
  },
  {
   "property": "C77",
   "status": "proved",
   "theorems": [
    "Verif.Props.ThreadPoolMore.C77_returns",
    "Verif.Props.ThreadPoolMore.C77_stuck",
    "Verif.Props.ThreadPoolMore.C77_terminates"
   ],
   "note": ""
  },
  {
   "property": "C78",
   "status": "partial",
   "theorems": [
    "Verif.Props.ItronThread.C78_tryWait_blocks",
    "Verif.Props.ItronThread.C78_wait_returns_partial"
   ],
   "note": "tryWait / a timed wait can block for a whole later run (counterexample C78_tryWait_blocks); proved: every call returns under fair scheduling if no further start becomes effective"
  },
  {
   "property": "C79",
   "status": "partial",
   "theorems": [
    "Verif.Props.StdThreadTable.C79_alive",
    "Verif.Props.StdThreadTable.C79_run_partial",
    "Verif.Props.StdThreadTable.C79_other_partial",
    "Verif.Props.StdThreadTable.C79_fresh",
    "Verif.Props.StdThreadTable.C79_destroy",
    "Verif.Props.StdThreadTable.C79_no_leak",
    "Verif.Props.StdThreadTable.C79_lost",
    "Verif.Props.StdThreadTable.C79_mistaken"
   ],
   "note": "that no dead object is returned, freshness, destroy and no-leak hold for every history; that the caller gets its own object / null needs that thread ids are not reused inside a destroy (or that create and destroy do not overlap); counterexamples C79_lost, C79_mistaken"
  },
  {
   "property": "C80",
   "status": "partial",
   "theorems": [
    "Verif.Props.StdCreate.C80_create_partial",
    "Verif.Props.StdCreate.C80_destroy",
    "Verif.Props.StdCreate.C80_terminate",
    "Verif.Props.StdCreate.C80_assert",
    "Verif.Props.StdCreate.C80_posix_priority",
    "Verif.Props.StdCreate.C80_windows_priority",
    "Verif.Props.StdCreate.C80_inherit_terminates"
   ],
   "note": "false when setName/setPriority throws after the thread exists: std::terminate (C80_terminate) or leak (C80_assert), reachable on Posix by C80_inherit_terminates; proved for every other combination, and that setPriority does not throw for in-range callers"
  },
  {
   "property": "C81",
   "status": "partial",
   "theorems": [
    "Verif.Props.StdCreate.C81_create_partial",
    "Verif.Props.StdCreate.C81_destroy",
    "Verif.Props.StdCreate.C81_null_deref",
    "Verif.Props.StdCreate.C81_leak",
    "Verif.Props.StdCreate.C81_posix_priority",
    "Verif.Props.StdCreate.C81_no_map"
   ],
   "note": "false when the timer thread cannot be made (null dereference, C81_null_deref) or setPriority throws (leak, C81_leak); proved for the other failure points"
  },
  {
   "property": "C82",
   "status": "proved",
   "theorems": [
    "Verif.Props.WinTimer.C82_at_most_once",
    "Verif.Props.WinTimer.C82_no_start",
    "Verif.Props.WinTimer.C82_one_per_start",
    "Verif.Props.WinTimer.C82_not_forgotten",
    "Verif.Props.WinTimer.C82_not_strict_two_callbacks"
   ],
   "note": ""
  },
  {
   "property": "C83",
   "status": "partial",
   "theorems": [
    "Verif.Props.WinTimer.C83_isStarted",
    "Verif.Props.WinTimer.C83_start",
    "Verif.Props.WinTimer.C83_stop",
    "Verif.Props.WinTimer.C83_too_late",
    "Verif.Props.WinTimer.C83_stopped_partial",
    "Verif.Props.WinTimer.C83_callback_after_stop",
    "Verif.Props.WinTimer.C83_stop_without_effect",
    "Verif.Props.WinTimer.C83_not_strict_unstoppable"
   ],
   "note": "isStarted/start/stop answers for every service; 'no callback begins after stop' proved for one-shot timers whose stop took effect and for periodic ones up to callbacks already dispatched; the full claim is false (C83_callback_after_stop, C83_stop_without_effect, C83_not_strict_unstoppable)"
  },
  {
   "property": "C84",
   "status": "partial",
   "theorems": [
    "Verif.Props.WinTimer.C84_destroy_partial",
    "Verif.Props.WinTimer.C84_wait_partial",
    "Verif.Props.WinTimer.C84_pending_callback",
    "Verif.Props.WinTimer.C84_unlock_after_delete",
    "Verif.Props.WinTimer.C84_overlap"
   ],
   "note": "proved unless a dispatched callback is before its first or after its last-but-one access when destroy's wait ends; the full claim is false (C84_pending_callback, C84_unlock_after_delete, C84_overlap)"
  },
  {
   "property": "C85",
   "status": "proved",
   "theorems": [
    "Verif.Props.ItronFactory.C85_fresh",
    "Verif.Props.ItronFactory.C85_bound",
    "Verif.Props.ItronFactory.C85_no_leak",
    "Verif.Props.ItronFactory.C85_own",
    "Verif.Props.ItronFactory.C85_null",
    "Verif.Props.ItronFactory.C85_foreign",
    "Verif.Props.ItronFactory.C85_possible"
   ],
   "note": ""
  },
  {
   "property": "C86",
   "status": "proved",
   "theorems": [
    "Verif.Props.ItronFactory.C86_callback",
    "Verif.Props.ItronFactory.C86_no_uaf",
    "Verif.Props.ItronFactory.C86_isStarted",
    "Verif.Props.ItronFactory.C86_destroyed",
    "Verif.Props.ItronFactory.C86_fires"
   ],
   "note": ""
  },
  {
   "property": "C87",
   "status": "partial",
   "theorems": [
    "Verif.Props.Ctor.C87_vector",
    "Verif.Props.Ctor.C87_deque",
    "Verif.Props.Ctor.C87_survivors_partial",
    "Verif.Props.Ctor.C87_survivors_n_partial",
    "Verif.Props.Ctor.C87_counterexample",
    "Verif.Props.Ctor.C87_copy"
   ],
   "note": "exact outcome of every constructor proved; the last clause is false: if construction number k throws, the k elements made before are never destroyed (C87_counterexample for every capacity and n >= 2)"
  },
  {
   "property": "C88",
   "status": "partial",
   "theorems": [
    "Verif.Props.MutexExit.C88_exclusion_partial",
    "Verif.Props.MutexExit.C88_recursion_partial",
    "Verif.Props.MutexExit.C88_unlock_partial",
    "Verif.Props.MutexExit.C88_free",
    "Verif.Props.MutexExit.C88_counterexample"
   ],
   "note": "false if a task ends holding the mutex more than once: m_recursiveCount is stale and the next holder needs extra unlocks (C88_counterexample); proved when every exiting task holds it at most once (an exit is then simulated by an unlock); that the mutex is free after the exit is proved in full"
  },
  {
   "property": "C89",
   "status": "partial",
   "theorems": [
    "Verif.Props.StdPool.C89_disjoint",
    "Verif.Props.StdPool.C89_no_bad_free",
    "Verif.Props.StdPool.C89_exact",
    "Verif.Props.StdPool.C89_release",
    "Verif.Props.StdPool.C89_blockSize",
    "Verif.Props.StdPool.C89_create",
    "Verif.Props.StdPool.C89_required_partial",
    "Verif.Props.StdPool.C89_required_counterexample",
    "Verif.Props.StdPool.C89_bound_counterexample",
    "Verif.Props.StdPool.C89_address_counterexample",
    "Verif.Props.StdPool.C89_destroy_counterexample"
   ],
   "note": "Blocks, frees, release, getBlockSize and create proved for all histories; size bound, use of the given memory and release at destroy are false (counterexamples); getRequiredMemorySize only without overflow"
  },
  {
   "property": "C90",
   "status": "partial",
   "theorems": [
    "Verif.Props.Race.C90_race_free_partial",
    "Verif.Props.Race.C90_only_handlers_partial",
    "Verif.Props.Race.C90_setters",
    "Verif.Props.Race.C90_mutex_partial",
    "Verif.Props.Race.C90_undisciplined"
   ],
   "note": "No data race between any calls other than the setters of uncaught exception handlers; with them races are on the handler variables only (C90_only_handlers_partial), and exist (C90_setters). The mutex count is race free if only holders unlock (C90_mutex_partial), otherwise not (C90_undisciplined). Accesses during construction and deletion are not modelled."
  },
  {
   "property": "C91",
   "status": "proved",
   "theorems": [
    "Verif.Props.Race.C91_callback_holds_nothing",
    "Verif.Props.Race.C91_no_deadlock",
    "Verif.Props.Race.C91_no_cycle",
    "Verif.Props.Race.C91_no_self_deadlock"
   ],
   "note": "Locks only; waiting for conditions (event flags, thread ends) is C92 and the liveness properties."
  },
  {
   "property": "C92",
   "status": "partial",
   "theorems": [
    "Verif.Props.TimerFactory.C92_no_deadlock_partial",
    "Verif.Props.TimerFactory.C92_windows_deadlock",
    "Verif.Props.TimerFactory.C92_self_destroy"
   ],
   "note": "No deadlock if callbacks do not destroy timers of their factory and on Windows do not create any; C92_windows_deadlock and C92_self_destroy are the counterexamples."
  },
  {
   "property": "C93",
   "status": "proved",
   "theorems": [
    "Verif.Props.PoolRace.C93_race_free",
    "Verif.Props.PoolRace.C93_no_use_after_destroy"
   ],
   "note": "Client discipline as in the model: a guard is used by one changing call at a time, destroy does not overlap with other calls."
  },
  {
   "property": "C94",
   "status": "partial",
   "theorems": [
    "Verif.Props.Init.C94_init_registers_partial",
    "Verif.Props.Init.C94_init_create_partial",
    "Verif.Props.Init.C94_itron_no_oneshot",
    "Verif.Props.Init.C94_range_partial",
    "Verif.Props.Init.C94_range_first_partial",
    "Verif.Props.Init.C94_range_fixed",
    "Verif.Props.Init.C94_factories_distinct",
    "Verif.Props.Init.C94_second_init_ignored",
    "Verif.Props.Init.C94_one_platform",
    "Verif.Props.Init.C94_two_platforms_mismatch"
   ],
   "note": "false of the code on two counts, proved: the ITRON init registers no OneShotTimer factory (C94_itron_no_oneshot) and a second init keeps the first priority range (C94_second_init_ignored); everything else is proved for every history"
  },
  {
   "property": "C95",
   "status": "proved",
   "theorems": [
    "Verif.Props.Refs.Vector.C95_vector_path_target",
    "Verif.Props.Refs.Vector.C95_vector_read",
    "Verif.Props.Refs.Vector.C95_vector_write",
    "Verif.Props.Refs.Vector.C95_vector_copy",
    "Verif.Props.Refs.Vector.C95_vector_step",
    "Verif.Props.Refs.Vector.C95_vector_history",
    "Verif.Props.Refs.Vector.C95_vector_safe",
    "Verif.Props.Refs.Deque.C95_deque_path_target",
    "Verif.Props.Refs.Deque.C95_deque_paths_distinct",
    "Verif.Props.Refs.Deque.C95_deque_read",
    "Verif.Props.Refs.Deque.C95_deque_write",
    "Verif.Props.Refs.Deque.C95_deque_copy",
    "Verif.Props.Refs.Deque.C95_deque_step",
    "Verif.Props.Refs.Deque.C95_deque_history",
    "Verif.Props.Refs.Deque.C95_deque_safe"
   ],
   "note": "vector and deque; reverse iterators are std::reverse_iterator (standard semantics)"
  },
  {
   "property": "C96",
   "status": "proved",
   "theorems": [
    "Verif.Props.DequeIter.C96_own_iterators",
    "Verif.Props.DequeIter.C96_equality",
    "Verif.Props.DequeIter.C96_default_iterator",
    "Verif.Props.DequeIter.C96_own_positions",
    "Verif.Props.DequeIter.C96_debug_null",
    "Verif.Props.DequeIter.C96_debug_mixed",
    "Verif.Props.DequeIter.C96_debug_foreign_position",
    "Verif.Props.DequeIter.C96_release_null_undefined"
   ],
   "note": "includes agreement of the owner-carrying iterator class with the index-level model"
  },
  {
   "property": "C97",
   "status": "proved",
   "theorems": [
    "Verif.Props.MessageQueueEvent.C97_refines",
    "Verif.Props.MessageQueueEvent.C97_std",
    "Verif.Props.MessageQueueEvent.C97_itron",
    "Verif.Props.MessageQueueEvent.C97_std_stuck",
    "Verif.Props.MessageQueueEvent.C97_itron_stuck",
    "Verif.Props.MessageQueueEvent.C97_std_terminates",
    "Verif.Props.MessageQueueEvent.C97_std_reaches",
    "Verif.Props.MessageQueueEvent.C97_itron_terminates",
    "Verif.Props.MessageQueueEvent.C97_itron_reaches"
   ],
   "note": "refinement of the queue on the event flag implementations to the queue on the atomic flag; linearizable FIFO, ring safety, no deadlock on StdCpp and ITRON; progress: executions without new calls and spurious wake-ups are bounded and come to rest in such a state"
  },
  {
   "property": "C98",
   "status": "proved",
   "theorems": [
    "Verif.Props.Cost.C98_vector_call",
    "Verif.Props.Cost.C98_deque_call",
    "Verif.Props.Cost.C98_vector_history",
    "Verif.Props.Cost.C98_deque_history",
    "Verif.Props.Cost.C98_bounds",
    "Verif.Props.Cost.C98_deque_ends"
   ],
   "note": "exact number of element constructions and assignments per call and per history, bounds derived"
  },
  {
   "property": "C99",
   "status": "partial",
   "theorems": [
    "Verif.Props.TestDouble.C99_lock_discipline",
    "Verif.Props.TestDouble.C99_signals",
    "Verif.Props.TestDouble.C99_send_not_locked",
    "Verif.Props.TestDouble.C99_send_room",
    "Verif.Props.TestDouble.C99_send_full",
    "Verif.Props.TestDouble.C99_receive_not_locked",
    "Verif.Props.TestDouble.C99_receive_message",
    "Verif.Props.TestDouble.C99_receive_empty",
    "Verif.Props.TestDouble.C99_getSize",
    "Verif.Props.TestDouble.C99_history_partial",
    "Verif.Props.TestDouble.C99_exact_partial",
    "Verif.Props.TestDouble.C99_stub_full",
    "Verif.Props.TestDouble.C99_stub_empty",
    "Verif.Props.TestDouble.C99_pool_destroy_partial",
    "Verif.Props.TestDouble.C99_pool_destroy_undefined"
   ],
   "note": "proved for all answers except a wait that is answered OK although nothing happened; with the shipped test doubles (every wait answers OK) the full statement is false: send on a full queue returns OK and overruns it, receive on an empty queue reads a dead slot, and ThreadPool::destroy always reaches that case (C99_stub_full, C99_stub_empty, C99_pool_destroy_undefined)"
  }
 ]
}