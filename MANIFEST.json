{
 "claims": [
  {
   "property": "C01",
   "status": "proved",
   "theorems": [
    "Polling.C01.reserved_key_refused",
    "Polling.C01.other_keys_passed_on",
    "Polling.C01.reserved_key_never_reaches_backend",
    "Polling.C01.calls_refine_backend"
   ],
   "note": "Generic over the backend interface."
  },
  {
   "property": "C02",
   "status": "proved",
   "theorems": [
    "Polling.C02.iter_no_reserved_key",
    "Polling.C02.iter_hides_nothing_else",
    "Polling.C02.len_exact",
    "Polling.C02.waitLoop_count",
    "Polling.C02.wait_count",
    "Polling.C02.epoll_shows_exactly_the_delivered"
   ],
   "note": ""
  },
  {
   "property": "C03",
   "status": "partial",
   "theorems": [
    "Polling.C03.key_round_trip",
    "Polling.C03.epoll_right_key",
    "Polling.C03.received_is_buildable",
    "Polling.C03.api_is_buildable",
    "Polling.C03.poll_right_key_partial",
    "Polling.C03.poll_right_key_as_coded",
    "Polling.C03.poll_every_event_attributed",
    "Polling.C03.poll_wrong_key",
    "Polling.C03.kqueue_right_key",
    "Polling.C03.kqueue_key_is_registered",
    "Polling.C03.kqueue_returns_taken",
    "Polling.C03.port_right_key",
    "Polling.C03.port_shows_exactly_the_taken",
    "Polling.C03.iocp_right_key",
    "Polling.C03.iocp_changes_own",
    "Polling.C03.iocp_returns_found",
    "Polling.C49.right_key"
   ],
   "note": "epoll, kqueue, event ports and IOCP proved; false of poll after a rejected modify (witness proved), holds otherwise."
  },
  {
   "property": "C04",
   "status": "partial",
   "theorems": [
    "Polling.C04.epoll_notification_not_lost",
    "Polling.C04.epoll_wait_reaches_os",
    "Polling.C04.epoll_wait_ends",
    "Polling.C04.kqueue_notification_not_lost",
    "Polling.C04.kqueue_wait_ends",
    "Polling.C04.port_notification_not_lost_partial",
    "Polling.C04.port_wait_goes_on",
    "Polling.C04.port_notification_lost",
    "Polling.C04.iocp_notification_not_lost_partial",
    "Polling.C04.iocp_notification_lost"
   ],
   "note": "epoll and both kqueue variants proved; event ports: holds unless port_send fails, after which the flag stays set (witness proved); poll is C05; IOCP: proved (the blocked wait, running alone, returns) unless the OS refuses an operation (witnesses proved)."
  },
  {
   "property": "C05",
   "status": "partial",
   "theorems": [
    "Polling.C05.poll_notification_not_lost_partial",
    "Polling.C05.poll_notified_wait_returns",
    "Polling.C05.poll_wait_fails_on_notify",
    "Polling.C05.poll_notification_lost",
    "Polling.C05.poll_eventfd_wait_fails_sequentially",
    "Polling.C05.poll_wait_fails_on_registration",
    "Polling.C05.poll_no_failure_partial",
    "Polling.C05.poll_blocking_no_failure",
    "Polling.C05.poll_blocking_notification_not_lost_partial",
    "Polling.C05.poll_vita_notified_wait_hangs",
    "Polling.C05.poll_hermit_notified_wait_hangs"
   ],
   "note": "False of the code as stated (witness runs proved); holds in every run in which no wait fails with WouldBlock. On the PS Vita and HermitOS no wait fails with WouldBlock, but a notified wait may hang (witnesses)."
  },
  {
   "property": "C06",
   "status": "partial",
   "theorems": [
    "Polling.C06.epoll_notify_coalesced",
    "Polling.C06.poll_notify_consumed",
    "Polling.C06.poll_notifies",
    "Polling.C06.poll_notify_coalesced",
    "Polling.C06.poll_wait_not_woken",
    "Polling.C06.kqueue_notify_coalesced",
    "Polling.C06.kqueue_user_notify_sticks",
    "Polling.C06.port_notify_coalesced_partial",
    "Polling.C06.port_notify_wakes_twice",
    "Polling.C06.notify_coalesced",
    "Polling.C06.wait_consumes",
    "Polling.C06.iocp_notify_coalesced_partial",
    "Polling.C06.iocp_notify_wakes_twice"
   ],
   "note": "epoll, poll (pipe) and kqueue proved; on kqueue under the kernel contract that EV_ADD keeps EV_CLEAR (witness otherwise); event ports: proved if nothing else is pending, false if events fill the buffer (witness); IOCP: as for event ports."
  },
  {
   "property": "C07",
   "status": "proved",
   "theorems": [
    "Polling.C07.one_thread_polls",
    "Polling.C07.second_wait_returns",
    "Polling.C07.wait_gets_through",
    "Polling.C07.who_changes_what",
    "Polling.C07.after_panic",
    "Polling.C07.locked_wait"
   ],
   "note": "Any backend, any number of threads; a panic inside the backend poisons the lock, after which every wait returns Ok(0) (after_panic)."
  },
  {
   "property": "C08",
   "status": "proved",
   "theorems": [
    "Polling.C08.wait_never_returns_interrupted",
    "Polling.C08.retries_use_original_deadline",
    "Polling.C08.retries_without_deadline",
    "Polling.C08.wait_ends_with_first_answer",
    "Polling.C08.waitLoop_spec"
   ],
   "note": "Any number of EINTR results; backend is a parameter."
  },
  {
   "property": "C09",
   "status": "proved",
   "theorems": [
    "Polling.C09.wait_not_early",
    "Polling.C09.epoll_timerfd_not_early",
    "Polling.C09.epoll_fallback_not_early",
    "Polling.C09.direct_not_early",
    "Polling.C09.poll_not_early",
    "Polling.C09.iocp_not_early",
    "Polling.C09.epoll_timerfd_wait_not_early",
    "Polling.C09.epoll_fallback_wait_not_early",
    "Polling.C09.poll_wait_not_early",
    "Polling.C09.iocp_wait_not_early",
    "Polling.C09.direct_wait_not_early",
    "Polling.C09.epoll_run_not_early",
    "Polling.C09.port_run_not_early"
   ],
   "note": "Up to the largest timeout the OS call accepts, as stated. The last two are about whole runs of the epoll and event-port pollers, with other threads."
  },
  {
   "property": "C10",
   "status": "proved",
   "theorems": [
    "Polling.C10.zero_is_nonblocking",
    "Polling.C10.nonblocking_only_if_zero",
    "Polling.C10.loop_zero",
    "Polling.C10.zero_timeout_never_blocks",
    "Polling.C10.expired_deadline_never_blocks",
    "Polling.C10.inner_deadline_zero",
    "Polling.C10.lib_zero",
    "Polling.C10.epoll_zero_never_blocks",
    "Polling.C10.direct_zero_never_blocks",
    "Polling.C10.poll_zero_never_blocks",
    "Polling.C10.iocpLoop_zero",
    "Polling.C10.iocp_zero_never_blocks",
    "Polling.C10.iocp_zero_one_round"
   ],
   "note": "About the OS calls: the whole wait() of each backend depends on its OS call only at time limit 0."
  },
  {
   "property": "C11",
   "status": "proved",
   "theorems": [
    "Polling.C11.epoll_ms_exact",
    "Polling.C11.poll_ms_exact",
    "Polling.C11.iocp_ms_exact",
    "Polling.C11.timer_value_exact",
    "Polling.C11.timer_value_needs_deadline_check",
    "Polling.C11.deadline_exact",
    "Polling.C11.remaining_exact"
   ],
   "note": ""
  },
  {
   "property": "C12",
   "status": "proved",
   "theorems": [
    "Polling.C12.epoll_wait_ends_by",
    "Polling.C12.epoll_wait_none",
    "Polling.C12.epoll_wait_none_blocks"
   ],
   "note": "epoll, with timerfd and without; all histories."
  },
  {
   "property": "C13",
   "status": "proved",
   "theorems": [
    "Polling.C13.poll_refines_map",
    "Polling.C13.poll_refines_map_as_coded",
    "Polling.C13.poll_never_panics",
    "Polling.C13.poll_call_results",
    "Polling.C13.poll_call_errors"
   ],
   "note": "The refused-but-effective modify is covered by the as-coded map; see C17."
  },
  {
   "property": "C14",
   "status": "proved",
   "theorems": [
    "Polling.C14.poll_wait_reports_exactly",
    "Polling.C14.poll_order_irrelevant",
    "Polling.C14.poll_again_iff"
   ],
   "note": ""
  },
  {
   "property": "C15",
   "status": "partial",
   "theorems": [
    "Polling.C15.epoll_oneshot",
    "Polling.C15.poll_oneshot_partial",
    "Polling.C15.poll_oneshot_violated",
    "Polling.C15.kqueue_delivered_once",
    "Polling.C15.kqueue_oneshot",
    "Polling.C15.kqueue_once_per_wait",
    "Polling.C15.kqueue_oneshot_kept_partial",
    "Polling.C15.port_oneshot",
    "Polling.C15.port_always_oneshot",
    "Polling.C15.iocp_oneshot",
    "Polling.C15.iocp_waitable_oneshot_partial",
    "Polling.C49.oneshot"
   ],
   "note": "epoll, event ports and IOCP sockets proved; false of poll for hang-up and error (witness proved), holds otherwise; kqueue: holds if the kernel replaces the mode, or if the filter was not watched when it was armed (otherwise C21.kqueue_mode_kept); IOCP waitables: an event after the first has neither flag."
  },
  {
   "property": "C16",
   "status": "partial",
   "theorems": [
    "Polling.C16.epoll_level",
    "Polling.C16.epoll_level_not_asleep",
    "Polling.C16.poll_level",
    "Polling.C16.poll_level_not_asleep",
    "Polling.C16.kqueue_level",
    "Polling.C16.kqueue_level_not_asleep",
    "Polling.C16.kqueue_not_starved",
    "Polling.C16.kqueue_ready_waiting",
    "Polling.C16.iocp_level_partial"
   ],
   "note": "epoll, poll and kqueue proved; event ports do not support level mode; IOCP: a level-triggered source is watched again after each event, in runs in which the OS accepts the operations."
  },
  {
   "property": "C17",
   "status": "partial",
   "theorems": [
    "Polling.C17.poll_rejects_exactly",
    "Polling.C17.poll_rejected_add_changes_nothing",
    "Polling.C17.poll_failed_modify_changes_registration",
    "Polling.C17.kqueue_rejects_exactly",
    "Polling.C17.port_rejects_exactly",
    "Polling.C17.iocp_rejects_exactly",
    "Polling.C17.epoll_rejects_exactly"
   ],
   "note": "poll: rejected exactly as documented, but a rejected modify changes the registration (witness proved); epoll, kqueue, event ports and IOCP proved."
  },
  {
   "property": "C18",
   "status": "partial",
   "theorems": [
    "Polling.C18.epoll_results",
    "Polling.C18.epoll_failure_changes_nothing",
    "Polling.C18.poll_results",
    "Polling.C18.poll_failure_changes_nothing_partial",
    "Polling.C18.kqueue_results",
    "Polling.C18.kqueue_failure_changes_nothing",
    "Polling.C18.port_results",
    "Polling.C18.port_failure_changes_nothing",
    "Polling.C18.iocp_results"
   ],
   "note": "epoll, kqueue, event ports and IOCP proved; poll: results proved, effects except a modify with unsupported mode."
  },
  {
   "property": "C19",
   "status": "partial",
   "theorems": [
    "Polling.C19.epoll_only_registered",
    "Polling.C19.epoll_nothing_after_delete",
    "Polling.C19.poll_only_registered",
    "Polling.C19.kqueue_only_registered",
    "Polling.C19.kqueue_nothing_after_delete",
    "Polling.C19.port_only_registered",
    "Polling.C19.port_nothing_after_delete",
    "Polling.C19.iocp_nothing_after_delete",
    "Polling.C19.iocp_only_registered",
    "Polling.C19.iocp_delete_returns_early",
    "Polling.C19.iocp_delete_stops_partial",
    "Polling.C19.iocp_uncancelled_stays",
    "Polling.C49.nothing_after_delete"
   ],
   "note": "epoll, poll, kqueue and event ports proved; IOCP: proved for the delete that removed the source; a second, concurrent delete may return earlier (witness). IOCP: after delete the AFD operation is gone, cancelled or complete, unless the OS refuses the cancellation."
  },
  {
   "property": "C20",
   "status": "proved",
   "theorems": [
    "Polling.C20.epoll_readable_iff",
    "Polling.C20.epoll_writable_iff",
    "Polling.C20.epoll_asked_iff",
    "Polling.C20.epoll_asks_for_what_it_reports",
    "Polling.C20.epoll_no_unasked_kind",
    "Polling.C20.poll_readable_iff",
    "Polling.C20.poll_writable_iff",
    "Polling.C20.poll_asked_iff",
    "Polling.C20.poll_no_unasked_kind",
    "Polling.C20.port_readable_iff",
    "Polling.C20.port_writable_iff",
    "Polling.C20.port_asked_iff",
    "Polling.C20.port_no_unasked_kind",
    "Polling.C20.epoll_delivery_faithful",
    "Polling.C20.port_delivery_asked",
    "Polling.C20.hermit_contains",
    "Polling.C20.hermit_contains_differs",
    "Polling.C20.hermit_intersects",
    "Polling.C20.hermit_extra",
    "Polling.C20.hermit_events",
    "Polling.C20.hermit_cvt"
   ],
   "note": ""
  },
  {
   "property": "C21",
   "status": "partial",
   "theorems": [
    "Polling.C21.kqueue_call_takes_effect",
    "Polling.C21.kqueue_event_iff",
    "Polling.C21.kqueue_mode_kept"
   ],
   "note": "Each successful call takes effect on the filters and keys; the mode of a filter that is already watched is replaced only if the kernel does so (witness otherwise); EPIPE is ignored by the code."
  },
  {
   "property": "C22",
   "status": "proved",
   "theorems": [
    "Polling.C22.kqueue_submit_is_one_by_one",
    "Polling.C22.kqueue_receipts_requested",
    "Polling.C22.kqueue_calls_keep_events",
    "Polling.C22.kqueue_calls_never_block"
   ],
   "note": ""
  },
  {
   "property": "C23",
   "status": "proved",
   "theorems": [
    "Polling.C23.kqueue_outcome_exact"
   ],
   "note": ""
  },
  {
   "property": "C24",
   "status": "partial",
   "theorems": [
    "Polling.C24.epoll_failed_add",
    "Polling.C24.poll_failed_add",
    "Polling.C24.kqueue_failed_add_is_remembered",
    "Polling.C24.kqueue_failed_add_is_watched",
    "Polling.C24.kqueue_failed_add_partial",
    "Polling.C24.port_failed_add",
    "Polling.C24.iocp_failed_add_partial",
    "Polling.C24.iocp_failed_add_is_remembered"
   ],
   "note": "epoll, poll and event ports proved; false of kqueue and IOCP (witnesses proved), holds for the filters on kqueue and for early failures on IOCP."
  },
  {
   "property": "C25",
   "status": "partial",
   "theorems": [
    "Polling.C25.iocp_within_interest",
    "Polling.C25.iocp_neither_partial",
    "Polling.C25.iocp_unasked_event",
    "Polling.C49.within_interest"
   ],
   "note": "Readable and writable proved; neither: proved for interests built with the API, false if a received event is used as interest (witness)."
  },
  {
   "property": "C26",
   "status": "partial",
   "theorems": [
    "Polling.C26.iocp_in_sync_partial",
    "Polling.C26.iocp_completion_repolls",
    "Polling.C26.iocp_one_poll",
    "Polling.C26.iocp_refused_is_forgotten"
   ],
   "note": "Proved whenever the OS accepts the poll operations; a refused operation leaves the socket unwatched (witness proved)."
  },
  {
   "property": "C27",
   "status": "proved",
   "theorems": [
    "Polling.C27.at_most_32",
    "Polling.C27.created_only_if_full",
    "Polling.C27.dead_dropped",
    "Polling.C27.used_is_listed",
    "Polling.C27.search_goes_on",
    "Polling.C27.search_terminates"
   ],
   "note": "The handle search (iocp/mod.rs:548-594) with strong/weak reference counts, for any number of threads' acquisitions and releases."
  },
  {
   "property": "C28",
   "status": "partial",
   "theorems": [
    "Polling.C28.iocp_call_while_blocked",
    "Polling.C28.iocp_nothing_queued_partial",
    "Polling.C28.iocp_takes_effect_partial",
    "Polling.C28.iocp_update_stranded",
    "Polling.C28.iocp_stale_load_strands"
   ],
   "note": "Holds unless a wait starts to block between the check of the polling flag and the push to the queue (witness of the stranded update proved). The load of `polling` is only Acquire; an old value has the same effect (iocp_stale_load_strands)."
  },
  {
   "property": "C29",
   "status": "partial",
   "theorems": [
    "Polling.C29.iocp_queue_in_order",
    "Polling.C29.iocp_wait_drains",
    "Polling.C29.iocp_popped_is_next",
    "Polling.C29.iocp_no_update_lost_partial",
    "Polling.C29.iocp_update_lost"
   ],
   "note": "Queue order and draining proved in all runs; an update is lost only if the OS refuses an operation (witness proved)."
  },
  {
   "property": "C30",
   "status": "proved",
   "theorems": [
    "Polling.C30.iocp_never_stuck",
    "Polling.C30.found_clean",
    "Polling.C30.iocp_received_is_buildable",
    "Polling.C30.iocp_api_is_buildable"
   ],
   "note": "Every interest the user can build, every interleaving."
  },
  {
   "property": "C31",
   "status": "partial",
   "theorems": [
    "Polling.C31.iocp_posted_at_most_once",
    "Polling.C31.iocp_posted_once_partial",
    "Polling.C31.iocp_all_returned_partial",
    "Polling.C31.iocp_packets_lost",
    "Polling.C49.posted_at_most_once"
   ],
   "note": "At most once, unchanged and in order: proved for all runs; not lost: proved unless the queue of updates is full and the OS refuses an operation (witness proved)."
  },
  {
   "property": "C32",
   "status": "partial",
   "theorems": [
    "Polling.C32.once_per_signal",
    "Polling.C32.no_signal_lost_partial",
    "Polling.C32.delivers_interest",
    "Polling.C32.removed_quiet_partial",
    "Polling.C32.waitable_spurious_event",
    "Polling.C32.event_after_removal",
    "Polling.C32.removed_wait_comes_back",
    "Polling.C15.iocp_waitable_oneshot_partial",
    "Polling.C32.waitable_in_sync_partial"
   ],
   "note": "At most one event per signal and none lost: proved. One-shot: at most one non-empty event per arming; the code can add an empty event (witness). Removal: silent if every signal was delivered before; false otherwise (two witnesses). An armed waitable is waited for or its signal is on its way, unless the OS refuses."
  },
  {
   "property": "C33",
   "status": "partial",
   "theorems": [
    "Polling.C33.poll_no_deadlock",
    "Polling.C33.poll_handover",
    "Polling.C33.poll_handover_not_stuck",
    "Polling.C33.poll_blocking_no_deadlock_partial",
    "Polling.C33.poll_vita_registration_hangs",
    "Polling.C33.poll_vita_apart_no_deadlock",
    "Polling.C33.poll_hermit_registrations_hang",
    "Polling.C33.poll_hermit_alone_no_deadlock"
   ],
   "note": "Proved as stated for every platform but the PS Vita and HermitOS (any number of threads, every interleaving; writes to the wake-up channel are assumed to work). False on these two, whose reads of the wake-up channel block: on both, a registration call that interrupts a wait hangs, on HermitOS also one of two concurrent registration calls (witnesses; nothing but a further call ends it). Proved there that this read is the only way to be stuck, and that nothing is stuck if registration calls and waits do not overlap (Vita), or no two calls overlap and notify is not called (HermitOS)."
  },
  {
   "property": "C34",
   "status": "proved",
   "theorems": [
    "Polling.C34.poll_applied_once",
    "Polling.C34.poll_linearizable",
    "Polling.C34.poll_table_stable",
    "Polling.C34.poll_one_waiter",
    "Polling.C34.poll_table_passed"
   ],
   "note": "any number of threads, every interleaving."
  },
  {
   "property": "C35",
   "status": "partial",
   "theorems": [
    "Polling.C35.epoll_channel_bounded",
    "Polling.C35.poll_channel_bounded",
    "Polling.C35.poll_channel_bounded_quiet",
    "Polling.C35.kqueue_channel_bounded",
    "Polling.C35.port_channel_bounded_partial",
    "Polling.C35.port_queue_grows",
    "Polling.C35.iocp_channel_bounded_partial",
    "Polling.C35.iocp_queue_grows"
   ],
   "note": "epoll, poll and kqueue proved; event ports and IOCP: bounded if the buffers have room for what is queued, unbounded for a buffer of one event (proved)."
  },
  {
   "property": "C36",
   "status": "proved",
   "theorems": [
    "Polling.C36.setters_getters",
    "Polling.C36.kqueue_setters_noop",
    "Polling.C36.constructors_of_lawful",
    "Polling.C36.constructors",
    "Polling.C36.with_no_extra_eq",
    "Polling.C20.hermit_extra"
   ],
   "note": ""
  },
  {
   "property": "C37",
   "status": "partial",
   "theorems": [
    "Polling.C37.epoll_honours_extra",
    "Polling.C37.iocp_honours_extra",
    "Polling.C37.epoll_received_event_keeps_interest",
    "Polling.C37.poll_ignores_priority",
    "Polling.C37.port_ignores_extra",
    "Polling.C37.poll_priority_partial",
    "Polling.C37.port_extra_partial"
   ],
   "note": "False of poll and event ports (witnesses proved); holds on epoll and IOCP."
  },
  {
   "property": "C38",
   "status": "proved",
   "theorems": [
    "Polling.C38.epoll_replaces",
    "Polling.C38.kqueue_replaces",
    "Polling.C38.port_replaces",
    "Polling.C38.poll_replaces",
    "Polling.C38.iocp_replaces",
    "Polling.C38.wait_replaces",
    "Polling.C38.exactly_reported",
    "Polling.C38.poll_exactly_found",
    "Polling.C38.iocp_capacity",
    "Polling.C38.capacity_never_panics",
    "Polling.C38.iocp_within_capacity",
    "Polling.C38.iocp_port_replaces"
   ],
   "note": "All backends; the vector operations of rustix are in the trusted base."
  },
  {
   "property": "C39",
   "status": "partial",
   "theorems": [
    "Polling.C39.epoll_failed_wait_disables_notify",
    "Polling.C39.epoll_failed_wait_partial",
    "Polling.C39.poll_failed_wait_disables_notify",
    "Polling.C05.poll_notification_not_lost_partial",
    "Polling.C39.kqueue_user_failed_wait",
    "Polling.C39.kqueue_failed_wait_partial",
    "Polling.C39.kqueue_pair_failed_wait_disables_notify",
    "Polling.C39.port_failed_wait",
    "Polling.C39.iocp_failed_wait_partial",
    "Polling.C39.iocp_failed_wait_disables_notify"
   ],
   "note": "False of epoll and of kqueue without EVFILT_USER when re-arming the notifier fails, of poll after WouldBlock, and of IOCP when an update is refused while completions are processed (witnesses proved); holds otherwise."
  },
  {
   "property": "C40",
   "status": "partial",
   "theorems": [
    "Polling.C40.kqueue_reserved_key_accepted",
    "Polling.C40.kqueue_portable_partial",
    "Polling.C40.iocp_portable_partial",
    "Polling.C40.iocp_reserved_key_accepted"
   ],
   "note": "False of the extension calls of kqueue and IOCP (witnesses proved), holds for the portable calls."
  },
  {
   "property": "C41",
   "status": "proved",
   "theorems": [
    "Polling.C41.epoll_no_starvation",
    "Polling.C41.epoll_left_out_stays_queued"
   ],
   "note": ""
  },
  {
   "property": "C42",
   "status": "partial",
   "theorems": [
    "Polling.C42.is_err_iff",
    "Polling.C42.is_connect_failed_iff",
    "Polling.C42.connect_failed_is_readable_and_writable",
    "Polling.C42.epoll_is_connect_failed_doc_or_false",
    "Polling.C42.documented_connect_failed_partial",
    "Polling.C42.port_is_connect_failed_doc_or_false"
   ],
   "note": "is_err, and what a positive is_connect_failed implies: proved on all backends. That its documented conditions imply is_connect_failed: proved on poll and IOCP; on epoll and event ports only if error and hang-up are both there, the documentation says \"or\" (witnesses)."
  },
  {
   "property": "C43",
   "status": "proved",
   "theorems": [
    "Polling.C43.port_ready_is_queued",
    "Polling.C43.port_not_starved",
    "Polling.C16.kqueue_ready_waiting",
    "Polling.C16.kqueue_not_starved"
   ],
   "note": ""
  },
  {
   "property": "C44",
   "status": "proved",
   "theorems": [
    "Polling.C44.iocp_event_exact",
    "Polling.C44.iocp_error_event",
    "Polling.C44.iocp_no_event",
    "Polling.IocpM.asks_mask"
   ],
   "note": ""
  },
  {
   "property": "C45",
   "status": "partial",
   "theorems": [
    "Polling.C45.iocp_takes_oldest",
    "Polling.C45.iocp_keeps_place_partial",
    "Polling.C31.iocp_packets_lost"
   ],
   "note": "Proved for all runs except those in which a failing update ends the processing of a batch (witness in C31)."
  },
  {
   "property": "C46",
   "status": "proved",
   "theorems": [
    "Polling.C46.epoll_new",
    "Polling.C46.epoll_notifier_nonblocking",
    "Polling.C46.epoll_initial_state",
    "Polling.C46.epoll_drop",
    "Polling.C46.epoll_works_without",
    "Polling.C46.kqueue_new",
    "Polling.C46.kqueue_notifier_nonblocking",
    "Polling.C46.kqueue_initial_state",
    "Polling.C46.kqueue_drop",
    "Polling.C46.kqueue_deaf_notifier",
    "Polling.C46.port_new",
    "Polling.C46.iocp_new",
    "Polling.C46.iocp_new_errors",
    "Polling.C46.poll_new",
    "Polling.C46.poll_initial_state",
    "Polling.C46.poll_new_eventfd",
    "Polling.C46.close_all"
   ],
   "note": "Every failing system call, all descriptor numbers. kqueue's initial state assumes that the kernel does not answer ENOENT or EPIPE to the registration of the notifier, which the code ignores (witness kqueue_deaf_notifier). On ESP-IDF and hermit, which have no exec, there is no close-on-exec flag. What in-flight operations of IOCP hold at the drop of the poller is treated in C47 and C48."
  },
  {
   "property": "C47",
   "status": "proved",
   "theorems": [
    "Polling.C47.no_use_after_free",
    "Polling.C47.kernel_packets_in_memory",
    "Polling.C47.registered_in_memory",
    "Polling.C47.user_packets_in_memory",
    "Polling.C47.freed_stays_freed"
   ],
   "note": "Every access, clone and drop of a packet by the library, the kernel and callbacks; the poller is dropped when no call is in progress."
  },
  {
   "property": "C48",
   "status": "partial",
   "theorems": [
    "Polling.C48.freed_iff_unneeded_partial",
    "Polling.C48.nothing_left_after_drop_partial",
    "Polling.C48.freed_or_leaked",
    "Polling.C48.refused_poll_leaks",
    "Polling.C48.refused_register_leaks",
    "Polling.C48.refused_post_leaks",
    "Polling.C48.removed_waitable_leaks",
    "Polling.C48.posted_then_dropped_leaks",
    "Polling.C48.polled_then_dropped_leaks",
    "Polling.C48.deleted_then_dropped_leaks"
   ],
   "note": "Proved for executions without refused operations, without removal of a waiting waitable handle and without dropping the poller while completions are queued or operations in flight; each exception is a proved leak."
  },
  {
   "property": "C49",
   "status": "proved",
   "theorems": [
    "Polling.C49.sections_are_atomic",
    "Polling.C49.same_memory",
    "Polling.C49.atomic_runs_exist",
    "Polling.C49.right_key",
    "Polling.C49.oneshot",
    "Polling.C49.nothing_after_delete",
    "Polling.C49.within_interest",
    "Polling.C49.posted_at_most_once"
   ],
   "note": "Every run of the machine with single accesses is one of the machine with atomic sections; the converse for runs in which a cancellation does not fail after its operation completed, the only behaviour the machine with atomic sections has in addition."
  },
  {
   "property": "C50",
   "status": "proved",
   "theorems": [
    "Polling.C50.one_side_at_a_time",
    "Polling.C50.kernel_gets_request",
    "Polling.C50.result_stays",
    "Polling.C50.reads_what_was_written"
   ],
   "note": "All interleavings of single accesses."
  },
  {
   "property": "C51",
   "status": "proved",
   "theorems": [
    "Polling.C51.at_most_one_mutex",
    "Polling.C51.owner_never_blocked",
    "Polling.C51.sections_are_short",
    "Polling.C51.mutexes_are_released",
    "Polling.C51.calls_proceed",
    "Polling.C51.wait_proceeds",
    "Polling.C51.callbacks_proceed"
   ],
   "note": "The self-deadlock of feed_event is excluded by C30 for all interests; the other locks (sources, the lock of wait, AFD handles) are each held for one step of the model."
  },
  {
   "property": "C52",
   "status": "partial",
   "theorems": [
    "Polling.C52.iocp_never_panics",
    "Polling.C52.iocp_update_valid",
    "Polling.C52.poll_never_panics",
    "Polling.C52.kqueue_panics_only_on_signals_partial",
    "Polling.C52.kqueue_invalid_signal",
    "Polling.C38.capacity_never_panics",
    "Polling.C52.iocp_wait_panics_iff"
   ],
   "note": "IOCP and poll: proved for all runs, for IOCP with buffers that have room for less than 2^32 events; with others wait panics (iocp_wait_panics_iff; iocp/port.rs:234). kqueue: a call panics only if it is given an invalid signal number, and then it does (witness)."
  },
  {
   "property": "C53",
   "status": "partial",
   "theorems": [
    "Polling.C53.filter_event",
    "Polling.C53.signal_oneshot_partial",
    "Polling.C53.signal_repeats"
   ],
   "note": "Events: proved. One-shot: proved for filters registered in one-shot modes only; false for signals in level mode (witness), contrary to the documentation."
  },
  {
   "property": "C54",
   "status": "partial",
   "theorems": [
    "Polling.C54.epoll_conforms",
    "Polling.C54.epoll_at_most_once",
    "Polling.C54.port_conforms",
    "Polling.C54.port_at_most_once",
    "Polling.C54.poll_conforms_partial",
    "Polling.C54.poll_does_not_conform",
    "Polling.C54.poll_at_most_once_partial",
    "Polling.C54.poll_hangup_more_than_once",
    "Polling.C54.kqueue_conforms_partial",
    "Polling.C54.kqueue_conforms_strict_partial",
    "Polling.C54.kqueue_at_most_once",
    "Polling.C54.kqueue_does_not_conform",
    "Polling.C54.iocp_conforms_partial",
    "Polling.C54.iocp_conforms_strict_partial",
    "Polling.C54.iocp_at_most_once",
    "Polling.C54.iocp_overlap_does_not_conform",
    "Polling.C54.iocp_does_not_conform"
   ],
   "note": "epoll and event ports: proved. poll: proved unless a modify was rejected because of its mode (witness) and, for the number of events, unless there are hang-ups (witness). kqueue: proved, except that the key may come from a call that failed after the OS had accepted one of its two changes (witness); the number of events is proved. IOCP: proved if calls for one source do not overlap (false otherwise: two overlapping deletes, witness); the key may come from a modify that failed when the OS refused to cancel the operation (witness); the number of events is proved without restriction."
  },
  {
   "property": "C55",
   "status": "proved",
   "theorems": [
    "Polling.C55.epoll_edge_only_news",
    "Polling.C55.epoll_edge_not_lost",
    "Polling.C55.epoll_edge_not_asleep",
    "Polling.C55.epoll_edge_no_starvation",
    "Polling.C55.kqueue_edge_only_news",
    "Polling.C55.kqueue_edge_not_lost",
    "Polling.C55.kqueue_edge_not_asleep",
    "Polling.C55.kqueue_edge_not_starved"
   ],
   "note": "The kernels' queues of ready sources are part of the trusted models; poll, event ports and IOCP reject these modes (C17)."
  },
  {
   "property": "C56",
   "status": "proved",
   "theorems": [
    "Polling.C56.never_wrong_socket",
    "Polling.C56.found_iff",
    "Polling.C56.one_broken_layer",
    "Polling.C56.two_broken_layers",
    "Polling.C56.asks_different",
    "Polling.C56.error_from_os"
   ],
   "note": "Two layers that do not answer are not got around: add fails (witness), which the statement allows."
  },
  {
   "property": "C57",
   "status": "proved",
   "theorems": [
    "Polling.C57.asked_once",
    "Polling.C57.written_before_read",
    "Polling.C57.same_for_all",
    "Polling.C57.what_the_os_said",
    "Polling.C57.never_fails_later",
    "Polling.C57.no_deadlock",
    "Polling.C57.failure_is_kept"
   ],
   "note": "std::sync::Once is trusted."
  },
  {
   "property": "C58",
   "status": "partial",
   "theorems": [
    "Polling.C58.epoll_live",
    "Polling.C58.port_live",
    "Polling.C58.poll_live",
    "Polling.C58.kqueue_live_partial",
    "Polling.C58.kqueue_live_mode_kept",
    "Polling.C58.iocp_live_partial",
    "Polling.C58.iocp_live_stranded"
   ],
   "note": "epoll, event ports and poll proved; kqueue: proved for kernels on which EV_ADD replaces the flags of a knote (false otherwise, witness) and without EPIPE refusals and failures of the notifier's own calls; IOCP: proved without failures of the OS and outside of the race between update_packet and a beginning wait (false otherwise, witness)."
  },
  {
   "property": "C59",
   "status": "partial",
   "theorems": [
    "Polling.C59.epoll_timeout_ends",
    "Polling.C59.port_timeout_ends",
    "Polling.C59.kqueue_timeout_ends",
    "Polling.C59.poll_timeout_ends_partial",
    "Polling.C59.iocp_timeout_ends",
    "Polling.C59.epoll_timerfd_wait_ends",
    "Polling.C59.epoll_fallback_wait_ends",
    "Polling.C59.direct_wait_ends",
    "Polling.C59.poll_wait_ends",
    "Polling.C59.iocp_wait_ends_partial",
    "Polling.C59.iocp_last_round",
    "Polling.C59.poll_wait_delayed",
    "Polling.C59.iocp_long_timeout_lost"
   ],
   "note": "epoll, kqueue and event ports proved; poll: proved with one more round for each registration call of another thread that interferes (their number is not bounded: witness); IOCP: for timeouts up to 4294967294 ms (longer ones become INFINITE: witness). Assumes that the OS does not sleep longer than asked (DESIGN, promptness)."
  },
  {
   "property": "C60",
   "status": "partial",
   "theorems": [
    "Polling.C60.poll_linearizable",
    "Polling.C60.poll_one_wins",
    "Polling.C60.kqueue_linearizable_partial",
    "Polling.C60.kqueue_one_wins_partial",
    "Polling.C60.kqueue_add_not_linearizable",
    "Polling.C60.kqueue_modify_outlives_delete",
    "Polling.C60.iocp_linearizable_partial",
    "Polling.C60.iocp_one_wins_partial",
    "Polling.C60.iocp_delete_not_strict",
    "Polling.C60.poll_blocking_linearizable"
   ],
   "note": "poll: proved as stated. kqueue: proved except that an add may return NotFound when another call deletes the source before add is done (witness that this has no order). IOCP: proved except that delete of a source that is not registered succeeds (witness). kqueue and IOCP assume that the OS calls do not themselves fail with NotFound or AlreadyExists. On epoll and event ports a registration call is one system call, so there is nothing to order (C18)."
  },
  {
   "property": "C61",
   "status": "proved",
   "theorems": [
    "Polling.C61.documented_backend",
    "Polling.C61.documented_unique",
    "Polling.C61.builds_iff",
    "Polling.C61.extensions",
    "Polling.C61.test_backend",
    "Polling.C61.test_backend_windows"
   ],
   "note": "The facts about the targets of rustc (which systems count as unix, windows, apple) are assumed (TgtSpec.Rustc). With the developers' switch polling_test_poll_backend it compiles on Unix and HermitOS but not on Windows (witness)."
  },
  {
   "property": "C62",
   "status": "partial",
   "theorems": [
    "Polling.C62.epoll_within_partial",
    "Polling.C62.epoll_disabled_partial",
    "Polling.C62.epoll_disabled_repeats",
    "Polling.C62.port_within_partial",
    "Polling.C62.port_disabled_delivers",
    "Polling.C62.poll_within_partial",
    "Polling.C62.poll_disabled_repeats",
    "Polling.C62.kqueue_disabled",
    "Polling.C62.iocp_disabled"
   ],
   "note": "kqueue and sockets on IOCP: proved as stated for disabled sources (kqueue: no other thread changing the source meanwhile). epoll, event ports and poll: proved except that errors and hang-ups are delivered whatever the interest (witnesses; on epoll and poll in level mode every wait returns at once). For readability and writability on IOCP see C25. Waitable handles on IOCP: see C32."
  },
  {
   "property": "C63",
   "status": "proved",
   "theorems": [
    "Polling.C63.closes_own",
    "Polling.C63.used_is_open",
    "Polling.C63.not_shared",
    "Polling.C63.no_leak",
    "Polling.C63.settles",
    "Polling.C63.helpers_as_in_C27"
   ],
   "note": "For all interleavings, failures and reuse of handle numbers."
  },
  {
   "property": "C64",
   "status": "proved",
   "theorems": [
    "Polling.C64.process_event_earned",
    "Polling.C64.process_event_comes",
    "Polling.C64.other_operations_ignored",
    "Polling.C64.timer_not_early",
    "Polling.C64.timer_can_expire",
    "Polling.C64.timer_event_comes",
    "Polling.C64.stale_expiry_without_reset"
   ],
   "note": "Assumes of the kernel that timers have EV_CLEAR and (for timer_not_early) that modifying a timer drops an unreported expiry; stale_expiry_without_reset is a witness for a kernel that does not."
  },
  {
   "property": "C65",
   "status": "proved",
   "theorems": [
    "Polling.C65.requests_and_answers",
    "Polling.C65.request_stays",
    "Polling.C65.kernel_reads_request",
    "Polling.C65.library_reads_answer",
    "Polling.C65.poll_confined",
    "Polling.C65.kernel_confined",
    "Polling.C65.packets_apart",
    "Polling.C65.polled_once",
    "Polling.C65.device_name",
    "Polling.C65.kernel_reads_name"
   ],
   "note": "The layout of the Rust enum PacketInner is a parameter; repr(C) is modelled. requests_and_answers is about runs with any number of packets; the others are about single calls from any memory."
  },
  {
   "property": "C66",
   "status": "partial",
   "theorems": [
    "Polling.C66.iocp_asks_only_with_reason_partial",
    "Polling.C66.iocp_wait_spins",
    "Polling.C66.poll_asks_only_with_reason"
   ],
   "note": "poll(2): proved for all runs. Windows: proved if every registration of a socket asks for reading or writing; false otherwise: with an empty interest and an aborted connection, wait runs in a loop for ever (iocp_wait_spins). The other backends have no loop except the one of lib.rs, which repeats an interrupted wait."
  },
  {
   "property": "C67",
   "status": "partial",
   "theorems": [
    "Polling.C67.epoll_empty_hands",
    "Polling.C67.port_empty_hands",
    "Polling.C67.poll_empty_hands",
    "Polling.C67.kqueue_empty_hands_partial",
    "Polling.C67.kqueue_empty_hands_more",
    "Polling.C67.iocp_empty_hands_partial",
    "Polling.C67.iocp_empty_hands_more",
    "Polling.C67.epoll_empty_hands_timed",
    "Polling.C67.port_empty_hands_timed",
    "Polling.C67.poll_empty_hands_timed",
    "Polling.C67.kqueue_empty_hands_timed_partial",
    "Polling.C67.iocp_empty_hands_timed_partial"
   ],
   "note": "epoll, event ports, poll(2): proved for all runs, without and with timeouts (an empty return before the time is over is due to notify). kqueue: proved, with and without timeouts, if adding the user filter again keeps EV_CLEAR, reading from the poller's own socket does not fail, and no filter of the extension has the reserved key; false in each of the other cases (kqueue_empty_hands_more). IOCP: proved, with and without timeouts, if no handle or packet of the extensions has the reserved key; false otherwise (iocp_empty_hands_more)."
  },
  {
   "property": "C68",
   "status": "partial",
   "theorems": [
    "Polling.C68.epoll_silent",
    "Polling.C68.epoll_alarm_partial",
    "Polling.C68.epoll_tells_events",
    "Polling.C68.epoll_tells_notify",
    "Polling.C68.epoll_alarm_false",
    "Polling.C68.port_silent",
    "Polling.C68.port_alarm",
    "Polling.C68.port_tells_events",
    "Polling.C68.port_tells_notify_partial",
    "Polling.C68.kqueue_silent",
    "Polling.C68.kqueue_alarm_partial",
    "Polling.C68.kqueue_tells_events_partial",
    "Polling.C68.kqueue_tells_notify_partial",
    "Polling.C68.kqueue_alarm_false"
   ],
   "note": "epoll: proved except that the timer of a wait that returned early stays armed, so that the descriptor is readable later for nothing (epoll_alarm_false). Event ports: proved except for a failing port_send (C04.port_notification_lost). kqueue: as C58 and C67; and a kernel that indicates active filters without asking them again gives false alarms (kqueue_alarm_false). poll(2) and IOCP give out no descriptor to be polled. When the descriptors are readable is an assumption about the OS."
  },
  {
   "property": "C69",
   "status": "proved",
   "theorems": [
    "Polling.C69.poll_notify_never_waits",
    "Polling.C69.poll_blocking_notify_never_waits",
    "Polling.C69.kqueue_notify_never_waits",
    "Polling.C69.iocp_notify_never_waits",
    "Polling.C69.epoll_notify_never_waits",
    "Polling.C69.port_notify_never_waits"
   ],
   "note": "poll, kqueue, IOCP: for every state and every thread that is outside, along every continuation (Spec/WaitFree.lean). epoll, event ports: threads inside notify are only counted in the model; the last step of each is possible at any time. Steps are atomic operations and system calls; those of the OS that notify makes do not block by contract: the write has room (epoll_channel_bounded, C35), kevent with a zero timeout, port_send and PostQueuedCompletionStatus return at once."
  },
  {
   "property": "C70",
   "status": "partial",
   "theorems": [
    "Polling.C70.kqueue_calls_never_wait",
    "Polling.C70.epoll_calls_never_wait",
    "Polling.C70.port_calls_never_wait",
    "Polling.C70.iocp_calls_never_wait_partial",
    "Polling.C70.iocp_call_may_starve",
    "Polling.C70.poll_call_waits"
   ],
   "note": "epoll, kqueue, event ports: proved for all states and all continuations. IOCP: proved that a call can always make its next step, and for the number of steps if it does not find the queue of 1024 updates full; every time it does, up to 2051 more steps; how often is not bounded (iocp_call_may_starve: two threads, one of which changes a registration again and again, and the other never gets through). Critical sections are single steps there (C49), the mutexes of packets and the locks of the tables are held for bounded times and never in a circle (C51). poll: false by design (poll_call_waits); the call wakes the waiting thread, which hands over the table after a bounded number of its steps (C33)."
  },
  {
   "property": "C71",
   "status": "proved",
   "theorems": [
    "Polling.C71.epoll_wait_comes_back",
    "Polling.C71.port_wait_comes_back",
    "Polling.C71.kqueue_wait_comes_back",
    "Polling.C71.poll_wait_comes_back"
   ],
   "note": "For every state (kqueue, poll: every reachable state) in which a thread sleeps in the system call and the call can return, along every continuation in which the re-arming of the notifier is not interrupted by a signal. That the system call does return then is the contract of the OS. poll: on targets where the channel is read without blocking (on the Vita and HermitOS waits hang, C33, C05); a poll() that reports only the channel is not an answer in this sense, wait polls again then (C59, C33)."
  },
  {
   "property": "C72",
   "status": "partial",
   "theorems": [
    "Polling.C72.iocp_wait_comes_back_partial",
    "Polling.C72.iocp_wait_may_starve"
   ],
   "note": "Proved with a bound of three steps for every completion, and three, plus 2051 for every time the thread finds the queue of updates full. Missing: a bound for how often that happens; update_packet starts again after it emptied a full queue, and other threads may fill it each time: iocp_wait_may_starve proves that without that count there is no bound, with one other thread that calls modify again and again. Entries of sockets alone are not covered: such an entry may carry no event, and wait goes back to the port then. A panic or a deadlock in feed_event is excluded (iocp_never_stuck). That packet mutexes are held for bounded sections only is C49."
  }
 ]
}