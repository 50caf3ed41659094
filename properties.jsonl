{"id": "C01", "title": "The reserved key is refused and refusal changes nothing", "statement": "Poller::add, add_with_mode, modify and modify_with_mode called with key == usize::MAX return InvalidInput and leave every registration, pending event and pending notification exactly as it was; with any other key the call is passed on to the OS backend unchanged.", "quantifier": "every backend, every poller state, every source, interest and mode", "why_tests_cant": "The refusal must hold in every state of every backend; a test tries one socket in one state on one OS.", "anchors": ["src/lib.rs Poller::add_with_mode", "src/lib.rs Poller::modify_with_mode", "src/lib.rs NOTIFY_KEY"]}
{"id": "C02", "title": "Internal wake-ups are never shown to the user and user events are never hidden", "statement": "Iterating over Events never yields an event whose key is usize::MAX, and never drops an event of a source registered through add/modify; len() is exactly the number of events iter() yields, is_empty() is exact, and wait() returns exactly that number.", "quantifier": "every content of the events buffer and every sequence of calls, on every backend", "why_tests_cant": "The buffer mixes internal and user events in any order and number; tests only see small batches.", "anchors": ["src/lib.rs Events::iter", "src/lib.rs Events::len", "src/lib.rs Poller::wait"]}
{"id": "C03", "title": "An event carries the key of the latest registration", "statement": "Every event wait() delivers for a source carries the key given in the latest successful add/modify of that source, for every key value (no truncation or sign problem on 32- or 64-bit targets), also when a modify changed only the key while an OS operation was already in flight.", "quantifier": "all keys, all usize widths up to 64 bits, all histories of add/modify/delete/wait", "why_tests_cant": "Needs all 2^64 keys and all histories of re-registration.", "anchors": ["src/epoll.rs Poller::add", "src/epoll.rs Events::iter", "src/kqueue.rs Poller::modify", "src/poll.rs Poller::modify", "src/iocp/mod.rs feed_event"]}
{"id": "C04", "title": "A notification is never lost (epoll, kqueue, event ports, IOCP)", "statement": "Once notify() has returned Ok, the wait() in progress or the next wait() does not stay blocked: whenever a thread is blocked in wait() although a notify() was called and returned after the last successful return from wait(), the OS lets it return at once, or some other notify() call is still in progress whose remaining step wakes the waiter.", "quantifier": "any number of threads calling notify and wait, every interleaving, every mix of I/O events, timeouts, EINTR and refused OS calls", "why_tests_cant": "Depends on the interleaving of the atomic flag, the wake-up channel and its re-arming; tests run a handful of schedules.", "anchors": ["src/lib.rs Poller::notify", "src/lib.rs Poller::wait", "src/epoll.rs Poller::wait", "src/epoll.rs Notifier", "src/kqueue.rs notify", "src/port.rs Poller::notify", "src/iocp/mod.rs Poller::notify"]}
{"id": "C05", "title": "A notification is never lost (poll backend)", "statement": "On the poll() backend too, once notify() has returned, the wait() in progress or the next wait() returns, and wait() does not fail because of a concurrent notify/add/modify/delete.", "quantifier": "any number of threads calling notify, wait, add, modify and delete, every interleaving", "why_tests_cant": "The poll backend juggles two flags, a counter, a condvar and a shared pipe; bugs need a particular interleaving of three threads.", "anchors": ["src/poll.rs Poller::wait", "src/poll.rs Poller::notify", "src/poll.rs Poller::modify_fds", "src/lib.rs Poller::wait", "src/lib.rs Poller::notify"]}
{"id": "C06", "title": "notify is coalesced and consumed by one wait", "statement": "Any number n >= 1 of notify() calls before a wait() make exactly the next wait() return at once, with no events and the count 0; used sequentially, the wait() after that one is not woken by those notifications.", "quantifier": "every n, every set of registered sources, every state of the poller between calls", "why_tests_cant": "Unbounded number of notify calls and arbitrary prior history.", "anchors": ["src/lib.rs Poller::notify", "src/lib.rs Poller::wait", "src/epoll.rs Notifier::clear"]}
{"id": "C07", "title": "Only one thread polls; other waits return at once", "statement": "At any moment at most one thread is inside the backend's wait; a wait() that finds another thread inside returns Ok(0) without blocking, without touching its Events buffer, the registrations, or pending notifications.", "quantifier": "any number of threads, every interleaving", "why_tests_cant": "Mutual exclusion over all schedules.", "anchors": ["src/lib.rs Poller::wait"]}
{"id": "C08", "title": "Interruption by signals is invisible", "statement": "wait() never returns ErrorKind::Interrupted: it retries, discards anything in the buffer from the interrupted attempt, and uses only the time remaining to the original deadline, so however many signals arrive the deadline is unchanged.", "quantifier": "every number and timing of EINTR results", "why_tests_cant": "Signals may arrive at any point and any number of times.", "anchors": ["src/lib.rs Poller::wait"]}
{"id": "C09", "title": "A timeout never fires early", "statement": "If wait(Some(t)) returns with no event, no notification, no error and no spurious wake-up by the OS, then at least t has elapsed (on backends with a bounded millisecond argument: at least min(t, the largest timeout the OS call accepts)); conversion to milliseconds always rounds up and is the least whole number of milliseconds that covers t.", "quantifier": "every Duration (all u64 seconds and nanoseconds), every number of interruptions, every backend", "why_tests_cant": "Rounding and saturation must be right for 2^64 * 10^9 durations.", "anchors": ["src/lib.rs Poller::wait", "src/epoll.rs Poller::wait", "src/poll.rs Poller::wait", "src/iocp/mod.rs dur2timeout", "src/iocp/port.rs IoCompletionPort::wait"]}
{"id": "C10", "title": "A zero or expired timeout never blocks", "statement": "wait(Some(0)), and any wait whose deadline has already passed, makes a non-blocking OS call on every backend (on epoll in particular, although a zero timerfd setting would disarm the timer).", "quantifier": "every backend configuration (with and without timerfd), every poller state", "why_tests_cant": "The zero case interacts with timer disarming and with every other state component.", "anchors": ["src/epoll.rs Poller::wait", "src/poll.rs Poller::wait", "src/iocp/mod.rs Poller::wait"]}
{"id": "C11", "title": "No timeout value panics, fails or is misread", "statement": "Every Duration is accepted: deadline arithmetic that overflows means wait forever, values passed to the OS never wrap to negative or shorter values, and no OS call gets an invalid time.", "quantifier": "every Duration and every clock value", "why_tests_cant": "Overflow boundaries on i32, u32, i64, u64 and u128 arithmetic.", "anchors": ["src/lib.rs Poller::wait", "src/epoll.rs Poller::wait", "src/poll.rs Poller::wait", "src/iocp/mod.rs dur2timeout"]}
{"id": "C12", "title": "wait(None) is not woken by an earlier timeout", "statement": "A timer set or expired in an earlier wait() call never wakes a later wait(None), and never causes a later wait(Some(t)) to return before its own deadline.", "quantifier": "every history of waits with arbitrary timeouts, timer expiry at any point", "why_tests_cant": "History-dependent: the timer object survives between calls.", "anchors": ["src/epoll.rs Poller::wait", "src/epoll.rs Poller::new"]}
{"id": "C13", "title": "poll backend: any call sequence behaves like a map from descriptor to registration", "statement": "On the poll() backend every sequence of add, modify, delete and wait returns the same results as a plain map from descriptor to (key, interest, mode): adding a registered descriptor gives AlreadyExists, modifying or deleting an unregistered one gives NotFound, the notification pipe descriptors are refused, and no call panics.", "quantifier": "every finite sequence of operations on any number of descriptors", "why_tests_cant": "The parallel vector and hash map with swap_remove must stay consistent over unbounded histories.", "anchors": ["src/poll.rs Poller::add", "src/poll.rs Poller::modify", "src/poll.rs Poller::delete", "src/poll.rs Fds"]}
{"id": "C14", "title": "poll backend: wait reports exactly the ready descriptors, each once", "statement": "After the OS reports readiness, the events wait() stores are exactly one per registered descriptor with a non-empty result, each with that descriptor's key and result flags, whatever the iteration order of the hash map; the early exit of the loop never loses an event.", "quantifier": "every table reachable by any call history, every readiness result, every iteration order", "why_tests_cant": "The hash map order is random and the early exit relies on a count from the OS.", "anchors": ["src/poll.rs Poller::wait"]}
{"id": "C15", "title": "One-shot delivery", "statement": "In Oneshot (and EdgeOneshot) mode, after an event of a source is delivered no further event (of that kind) is delivered until the source is re-armed by modify/add.", "quantifier": "every backend, every readiness history after the delivery, any number of wait calls", "why_tests_cant": "Must hold for unboundedly many later waits and all readiness changes.", "anchors": ["src/epoll.rs epoll_flags", "src/kqueue.rs mode_to_flags", "src/poll.rs Poller::wait", "src/port.rs Poller::modify", "src/iocp/mod.rs feed_event"]}
{"id": "C16", "title": "Level-triggered delivery", "statement": "In Level mode a source that stays ready is reported by every wait() with room in its buffer until its interest is removed; a not yet reported ready source is never forgotten when events arrive in batches smaller than the ready set.", "quantifier": "every number of waits, every batch size, every set of sources", "why_tests_cant": "Starvation or forgetting only shows with many sources and many waits.", "anchors": ["src/epoll.rs epoll_flags", "src/poll.rs Poller::wait", "src/kqueue.rs mode_to_flags", "src/iocp/mod.rs feed_event"]}
{"id": "C17", "title": "Unsupported modes are rejected, consistently with supports_level/supports_edge", "statement": "A mode is rejected with an error exactly when supports_level()/supports_edge() says it is unsupported, and a rejected add or modify leaves every registration unchanged.", "quantifier": "every backend, mode, interest and poller state", "why_tests_cant": "All combinations of backend, mode and state.", "anchors": ["src/poll.rs cvt_mode_as_remove", "src/poll.rs Poller::modify", "src/port.rs Poller::modify", "src/iocp/mod.rs Poller::add", "src/iocp/mod.rs Poller::modify"]}
{"id": "C18", "title": "Double add, unknown modify and unknown delete are errors without side effects", "statement": "Adding a source that is registered fails with AlreadyExists, modifying or deleting one that is not fails with NotFound (event ports accept all three, IOCP accepts an unknown delete), and a failed call leaves every registration unchanged.", "quantifier": "every backend and every poller state", "why_tests_cant": "Quantifies over all states and call histories.", "anchors": ["src/kqueue.rs add_source", "src/kqueue.rs has_source", "src/kqueue.rs remove_source", "src/poll.rs Poller::add", "src/iocp/mod.rs Poller::add", "src/port.rs Poller::delete"]}
{"id": "C19", "title": "After delete no event of the source is delivered", "statement": "Once delete() has returned, no later wait() delivers an event for that source, even if the source was ready, its OS operation was in flight, or its completion was already queued, unless it is added again.", "quantifier": "every backend, every state at the time of the delete, every later schedule of OS completions and waits", "why_tests_cant": "Completions in flight at the moment of delete are timing dependent.", "anchors": ["src/epoll.rs Poller::delete", "src/kqueue.rs Poller::delete", "src/poll.rs Poller::delete", "src/iocp/mod.rs Poller::delete", "src/iocp/mod.rs begin_delete", "src/iocp/mod.rs feed_event", "src/iocp/mod.rs Poller::remove_waitable"]}
{"id": "C20", "title": "epoll, poll and event-port flags are translated faithfully", "statement": "An event is readable iff the OS reported input, priority input, hang-up or error, and writable iff it reported output (or write-band), hang-up or error; asking for readable (writable) makes the OS wait for every condition that is reported as readable (writable), and a source of which only readability was asked is reported writable only together with hang-up or error.", "quantifier": "all flag words, all interests and modes", "why_tests_cant": "All 2^32 flag words and their combinations with interest and mode.", "anchors": ["src/epoll.rs epoll_flags", "src/epoll.rs read_flags", "src/epoll.rs write_flags", "src/epoll.rs Events::iter", "src/poll.rs poll_events", "src/poll.rs read_events", "src/poll.rs write_events", "src/port.rs Events::iter"]}
{"id": "C21", "title": "kqueue filters are translated faithfully", "statement": "After a successful add/modify the kernel queue watches the source for reading iff interest.readable and for writing iff interest.writable, with the requested mode and key (unless the kernel refused the change with EPIPE); an event is readable iff it comes from a read, vnode, process, signal or timer filter and writable iff it comes from a write filter or is an end-of-file on a read filter.", "quantifier": "all interests, modes, keys, earlier kernel states, and all kernel events", "why_tests_cant": "All earlier registrations of the two filters of a descriptor.", "anchors": ["src/kqueue.rs Poller::modify", "src/kqueue.rs Events::iter", "src/kqueue.rs mode_to_flags", "src/os/kqueue.rs"]}
{"id": "C22", "title": "kqueue: changing registrations or notifying never swallows events and never blocks", "statement": "add, modify, delete, add_filter, modify_filter, delete_filter and notify on kqueue never remove a pending event from the queue and never wait: the kernel's answer slots are all filled by receipts of the submitted changes.", "quantifier": "every pending-event queue, every change list the API can submit, every per-change error", "why_tests_cant": "Only visible when events are pending at the very moment of the change.", "anchors": ["src/kqueue.rs Poller::submit_changes", "src/kqueue.rs Poller::modify", "src/kqueue.rs notify", "src/os/kqueue.rs FilterSealed::filter"]}
{"id": "C23", "title": "kqueue: the outcome of a change is reported exactly", "statement": "A registration change on kqueue returns an error iff the kernel rejected some change with an error other than ENOENT or EPIPE, and then the error is the first such one; deletion of an interest that is not present is not an error.", "quantifier": "all change lists and all kernel answers", "why_tests_cant": "All combinations of per-change errno values.", "anchors": ["src/kqueue.rs Poller::submit_changes"]}
{"id": "C24", "title": "A failed add leaves no registration behind", "statement": "If add() fails because the OS refuses the source, the source is not registered: a later add of the same source is not rejected as a duplicate, and no event is delivered for it.", "quantifier": "every backend, every failure point inside add", "why_tests_cant": "Fault injection at each internal step.", "anchors": ["src/kqueue.rs Poller::add", "src/iocp/mod.rs Poller::add", "src/epoll.rs Poller::add", "src/poll.rs Poller::add"]}
{"id": "C25", "title": "IOCP: events only within the registered interest", "statement": "On Windows every socket event delivered is within the interest registered at that time: readable only if readability was asked for, writable only if writability was asked for, and an event with neither is delivered only for an asked-for interrupt or priority condition.", "quantifier": "all AFD statuses and result masks, all interests and modes, all histories", "why_tests_cant": "All AFD result masks and status codes, including error statuses.", "anchors": ["src/iocp/mod.rs feed_event", "src/iocp/mod.rs event_to_afd_mask", "src/iocp/mod.rs afd_mask_to_event"]}
{"id": "C26", "title": "IOCP: the interest and what AFD polls for never diverge", "statement": "On Windows, after pending updates are processed, every registered socket either has exactly one AFD poll in flight for exactly the conditions of its current interest, or has a cancelled one in flight whose completion triggers re-polling; no socket ever has two polls in flight and none is forgotten.", "quantifier": "every history of add/modify/delete/completions in any order", "why_tests_cant": "Asynchronous completions can arrive in any order relative to API calls.", "anchors": ["src/iocp/mod.rs update", "src/iocp/mod.rs set_events", "src/iocp/mod.rs feed_event", "src/iocp/mod.rs cancel", "src/iocp/afd.rs Afd::poll"]}
{"id": "C27", "title": "IOCP: AFD handles are shared by at most 32 sockets and are pruned", "statement": "No AFD helper handle is ever used by more than 32 sockets, a new one is created only if every live one is full, dead ones are dropped from the list as they are met, and the search always terminates.", "quantifier": "every number of sockets and every history of add and delete", "why_tests_cant": "Needs unbounded numbers of sockets.", "anchors": ["src/iocp/mod.rs Poller::afd_handle"]}
{"id": "C28", "title": "IOCP: a registration made while another thread waits takes effect", "statement": "On Windows an add or modify concurrent with wait() takes effect without needing another wake-up: the waiting thread is not left blocked while a completed add/modify is still unprocessed in the queue.", "quantifier": "every interleaving of any number of add/modify calls with a waiting thread", "why_tests_cant": "A time-of-check/time-of-use window between one atomic load and one queue push.", "anchors": ["src/iocp/mod.rs update_packet", "src/iocp/mod.rs drain_update_queue", "src/iocp/mod.rs Poller::wait"]}
{"id": "C29", "title": "IOCP: no update is lost", "statement": "On Windows every registration change is applied to its socket exactly in queue order by the next wait iteration, even when more than the queue capacity of 1024 changes are pending, and the queue never overflows.", "quantifier": "every number of pending updates", "why_tests_cant": "More updates than the queue capacity, unbounded histories.", "anchors": ["src/iocp/mod.rs update_packet", "src/iocp/mod.rs drain_update_queue"]}
{"id": "C30", "title": "IOCP: a locally closed socket never hangs or panics the poller", "statement": "Processing of a completion never dead-locks on the socket's own lock and never panics on a missing source, because the local-close condition is never requested from AFD.", "quantifier": "all interests a user can construct, including events received from wait and passed back, all AFD results that only contain requested conditions", "why_tests_cant": "The branch is dead only because of an invariant over all reachable interest values.", "anchors": ["src/iocp/mod.rs feed_event", "src/iocp/mod.rs event_to_afd_mask", "src/iocp/mod.rs EventExtra"]}
{"id": "C31", "title": "IOCP: posted packets are delivered exactly once, in order, unchanged", "statement": "Every event posted with PollerIocpExt::post is delivered by wait exactly once per post, unchanged and in posting order, for every event the user can construct.", "quantifier": "all events, all numbers of posts and batch sizes", "why_tests_cant": "All keys (including the reserved one) and unbounded queues.", "anchors": ["src/os/iocp.rs PollerIocpExt::post", "src/iocp/mod.rs Poller::post", "src/iocp/mod.rs feed_event"]}
{"id": "C32", "title": "IOCP waitables: interest, one-shot and removal are respected", "statement": "A waitable handle delivers its registered event once per signal, at most once per arming in Oneshot mode, and none after remove_waitable.", "quantifier": "every interleaving of signal callbacks, modify_waitable, remove_waitable and wait", "why_tests_cant": "The callback runs on an OS thread at any time.", "anchors": ["src/iocp/mod.rs WaitableState", "src/iocp/mod.rs update", "src/iocp/mod.rs feed_event", "src/iocp/mod.rs begin_delete", "src/iocp/mod.rs Poller::remove_waitable"]}
{"id": "C33", "title": "poll backend: registration changes and waiting never dead-lock", "statement": "On the poll() backend, in every reachable state either no call is in progress except a wait with nothing to do, or some call in progress can take a step; a waiting thread hands over the descriptor table within a bounded number of its own steps after a registration call has announced itself, so add/modify/delete never hang behind a blocked wait().", "quantifier": "any number of threads, every interleaving, spurious condvar wake-ups, EINTR", "why_tests_cant": "Dead-lock freedom and lost wake-ups over all schedules.", "anchors": ["src/poll.rs Poller::modify_fds", "src/poll.rs Poller::wait", "src/poll.rs Poller::notify"]}
{"id": "C34", "title": "poll backend: the descriptor table is never changed while it is being polled or changed", "statement": "At most one thread at a time accesses the descriptor table, each registration change is applied exactly once, and the table passed to the OS is the result of applying all completed changes in their order.", "quantifier": "any number of threads, every interleaving", "why_tests_cant": "Linearizability over all schedules.", "anchors": ["src/poll.rs Poller::modify_fds", "src/poll.rs Poller::wait"]}
{"id": "C35", "title": "The wake-up channel stays bounded", "statement": "The number of unread wake-up bytes (or counter value) never exceeds twice the number of threads plus a small constant, however many notify and registration calls are made, so notify() and registration calls cannot block on a full pipe.", "quantifier": "every number of calls, any fixed number of threads, every interleaving", "why_tests_cant": "Growth only shows after unboundedly many calls under particular races.", "anchors": ["src/epoll.rs Notifier", "src/poll.rs notify::Notify", "src/lib.rs Poller::notify"]}
{"id": "C36", "title": "Extra event information obeys its setters and getters", "statement": "On backends that support it, set_interrupt/with_interrupt/set_priority/with_priority make is_interrupt/is_priority return what was set, independently of each other, without changing key, readable or writable; with_no_extra/clear_extra reset all of it; events built with Event::new/all/readable/writable/none carry exactly the requested fields; on kqueue they are no-ops and always read false.", "quantifier": "all events including those received from the OS, all sequences of setter calls", "why_tests_cant": "All flag words and setter sequences.", "anchors": ["src/lib.rs Event", "src/epoll.rs EventExtra", "src/poll.rs EventExtra", "src/port.rs EventExtra", "src/kqueue.rs EventExtra", "src/iocp/mod.rs EventExtra"]}
{"id": "C37", "title": "Interrupt and priority interest is honoured", "statement": "If a source is registered with with_priority() or with_interrupt() on a backend that documents support (epoll, poll, event ports, IOCP), the OS is asked to report that condition even if neither readability nor writability is requested.", "quantifier": "all interests and modes on the four backends", "why_tests_cant": "All combinations of interest and extra flags on OSes that CI may not run.", "anchors": ["src/lib.rs Event::set_priority", "src/epoll.rs Poller::add", "src/poll.rs poll_events", "src/port.rs Poller::modify", "src/iocp/mod.rs event_to_afd_mask"]}
{"id": "C38", "title": "wait replaces the content of the buffer and respects capacity", "statement": "A wait() that polls leaves in the buffer exactly the events of that call, independent of the previous content (in particular it does not append); capacity() never panics and a batch never exceeds what the buffer can hold on backends that pass the capacity to the OS.", "quantifier": "all previous buffer contents, capacities and results", "why_tests_cant": "All previous contents and capacities.", "anchors": ["src/poll.rs Poller::wait", "src/iocp/mod.rs Poller::wait", "src/epoll.rs Poller::wait", "src/lib.rs Events::capacity", "src/lib.rs Events::with_capacity"]}
{"id": "C39", "title": "A failed wait does not disable notification", "statement": "If wait() returns an error, a later notify() still wakes a later wait().", "quantifier": "every failure point inside wait, every interleaving of notify", "why_tests_cant": "Fault injection at each OS call inside wait combined with notify interleavings.", "anchors": ["src/lib.rs Poller::wait", "src/epoll.rs Poller::wait", "src/poll.rs Poller::wait", "src/iocp/mod.rs Poller::wait"]}
{"id": "C40", "title": "Extension registrations do not accept the reserved key", "statement": "Keys equal to usize::MAX are refused (or their events delivered) also by the platform extensions: add_filter/modify_filter on kqueue, add_waitable/modify_waitable/post on IOCP.", "quantifier": "every extension call and state", "why_tests_cant": "All keys over all extension entry points.", "anchors": ["src/os/kqueue.rs PollerKqueueExt", "src/os/iocp.rs PollerIocpExt", "src/lib.rs Events::iter"]}
{"id": "C41", "title": "epoll: a batch limit never loses an event", "statement": "On epoll, a ready and armed source that is not part of the batch returned by a wait() because the buffer was full is still pending, and is returned within a number of further waits bounded by the number of ready sources.", "quantifier": "every number of ready sources and every buffer capacity >= 1", "why_tests_cant": "Requires more ready sources than the buffer capacity and any mix of modes.", "anchors": ["src/epoll.rs Poller::wait", "src/epoll.rs Events::with_capacity"]}
{"id": "C42", "title": "Error and connection-failure queries", "statement": "is_err() is Some(true) iff the OS flagged an error on that event (None exactly on kqueue). is_connect_failed() is Some(true) whenever one of its documented conditions holds (an error or a hang-up on Unix, a failed connection on Windows; None on kqueue), and an event for which it is Some(true) is readable and writable, so that a program that only looks at these notices as well.", "quantifier": "all events on all backends", "why_tests_cant": "A test sees the few flag words its kernel produces; the claim is about all of them, on five backends.", "anchors": ["src/lib.rs Event::is_err", "src/lib.rs Event::is_connect_failed", "src/epoll.rs EventExtra::is_err", "src/poll.rs EventExtra::is_connect_failed", "src/iocp/mod.rs EventExtra::is_err"]}
{"id": "C43", "title": "kqueue and event ports: a batch limit never loses an event", "statement": "On kqueue and event ports, a ready and armed source that is not part of the batch returned by a wait() because the buffer was full stays queued, and is returned within a number of further waits bounded by the number of entries queued before it.", "quantifier": "every number of ready sources, every buffer capacity >= 1, every interleaving with other calls", "why_tests_cant": "Needs every combination of ready sets, batch sizes and calls made between the waits.", "anchors": ["src/port.rs Poller::wait", "src/kqueue.rs Poller::wait", "src/lib.rs Events::with_capacity"]}
{"id": "C44", "title": "IOCP: AFD conditions are translated faithfully", "statement": "The event a socket delivers on Windows is exactly what the OS reported, restricted to the registered interest: readable for data, urgent data, end of stream, a pending connection or an error, writable for room to send or an error, and only if asked for; the OS is asked for exactly the conditions that can make such an event; a failed operation shows whatever was asked for.", "quantifier": "all interests, all modes, all sets of reported conditions, every history", "why_tests_cant": "2^9 condition sets times interests, modes and histories; several conditions are hard to provoke.", "anchors": ["src/iocp/mod.rs event_properties_to_afd_mask", "src/iocp/mod.rs afd_mask_to_event", "src/iocp/mod.rs feed_event", "src/iocp/afd.rs AfdPollMask"]}
{"id": "C45", "title": "IOCP: a batch limit never loses or reorders completions", "statement": "If more completions are pending than the Events buffer has room for, wait takes the oldest ones and the others are taken by the following waits, in their order, before any newer completion; none is lost.", "quantifier": "all capacities, all numbers of pending completions, every interleaving with new completions and calls", "why_tests_cant": "Unbounded queues and arbitrary interleavings of completions with waits.", "anchors": ["src/iocp/mod.rs Poller::wait", "src/iocp/port.rs IoCompletionPort::wait"]}
{"id": "C46", "title": "Poller::new is all or nothing and Drop gives everything back", "statement": "Poller::new either returns a poller or returns an error and leaves the process with exactly the descriptors it had before, whichever of its system calls fails. All descriptors of a new poller were opened by it, are different, and are closed on exec; reading its notifier never blocks. The poller starts with only its notifier (and timer) registered, under the reserved key. Dropping the poller closes each of its descriptors exactly once and no other, so registered sources stay open. With epoll, a missing eventfd, timerfd or pipe2 does not prevent creation.", "quantifier": "all subsets of failing system calls, all descriptor numbers the OS may choose, all descriptor tables, all backends", "why_tests_cant": "Failures of single system calls in the middle of new cannot be provoked by a test, and the number of combinations of failures and fallbacks is unbounded.", "anchors": ["src/epoll.rs Poller::new, Drop, Notifier::new", "src/kqueue.rs Poller::new, Drop, notify::Notify", "src/port.rs Poller::new", "src/poll.rs Poller::new, notify::Notify::new", "src/iocp/mod.rs Poller::new", "src/iocp/port.rs Drop"]}
{"id": "C47", "title": "IOCP packets are never used after they were freed", "statement": "On Windows, the memory that the kernel, a thread-pool callback, the completion queue or another thread works on stays allocated for as long as they may access it: whatever the user does (adding, modifying, deleting sources, posting, cloning and dropping completion packets, waiting, notifying, dropping the Poller while operations are in flight) and whichever operations the OS refuses, no packet is accessed, cloned or dropped after it was freed.", "quantifier": "all numbers of threads, all interleavings of calls, kernel completions and callbacks, all refused operations, all times of dropping the poller", "why_tests_cant": "A use after free shows only under particular interleavings of completions with deletes and drops, and even then usually goes unnoticed.", "anchors": ["src/iocp/mod.rs Poller, PacketUnwrapped::update, begin_delete, feed_event, WaitHandle", "src/iocp/afd.rs Afd::poll, Afd::cancel", "src/iocp/port.rs CompletionHandle for Pin<Arc<T>>, OverlappedEntry"]}
{"id": "C48", "title": "IOCP packets are freed as soon as nothing needs them", "statement": "On Windows, when no call is in progress, the memory of a registration or of a posted packet is freed unless it is still registered, queued for an update, in the completion queue, used by an operation of the kernel, or in the hands of the user; after the Poller is dropped and all operations are over nothing is left.", "quantifier": "all numbers of threads, all interleavings, all refused operations", "why_tests_cant": "Leaks of single packets have no functional effect, and the error paths that cause them cannot be provoked by tests.", "anchors": ["src/iocp/mod.rs update, begin_delete, WaitHandle, post, notify", "src/iocp/afd.rs Afd::poll", "src/iocp/port.rs post, OverlappedEntry, Drop"]}
{"id": "C49", "title": "IOCP: concurrent calls behave as if each critical section were one step", "statement": "On Windows, add, modify, delete, wait, thread-pool callbacks and the kernel work on the same registration at the same time, under one mutex per packet that wait and the calls take and release around several accesses and system calls. Whatever the interleaving of these accesses, every sequence of results, registrations and events that can be observed is one in which each critical section happens at a single instant, and conversely. Hence the right key, one-shot, no event after delete, events within the interest, and at-most-once delivery of posted packets hold for all interleavings of single accesses.", "quantifier": "all numbers of threads, all interleavings at the granularity of single memory accesses and system calls, all OS behaviours", "why_tests_cant": "A missing or misplaced lock shows only when two threads meet inside a window of a few instructions.", "anchors": ["src/iocp/mod.rs PacketUnwrapped::set_events, update, feed_event, begin_delete, cancel", "src/iocp/afd.rs Afd::poll, Afd::cancel"]}
{"id": "C50", "title": "IOCP: the process and the kernel never use the buffers of an operation at the same time", "statement": "The poll-info structure and the status block of a registration are shared with the kernel while an operation is in flight. The process writes them only while no operation is in flight or waits to be processed; the kernel gets exactly the request that was prepared, finds the status pending, and writes once per operation; the result stays in place until wait has processed it; and every event delivered is made of the result written last.", "quantifier": "all numbers of threads, all interleavings at the granularity of single accesses, all results the kernel may write, all refused operations", "why_tests_cant": "A buffer overwritten while the kernel uses it is a data race without any reliable symptom.", "anchors": ["src/iocp/mod.rs update, feed_event", "src/iocp/afd.rs Afd::poll, IoStatusBlock"]}
{"id": "C51", "title": "IOCP: no deadlock on the mutexes of packets", "statement": "No thread ever holds the mutexes of two packets; whoever holds one can always go on, whatever the OS answers, and releases it after at most nine accesses. A thread in add, modify, delete or notify, a callback, and a wait that is not blocked on the empty completion port can always go on or wait only for a mutex whose owner can go on.", "quantifier": "all numbers of threads, all reachable states at the granularity of single accesses", "why_tests_cant": "Deadlocks need particular interleavings; their absence is a statement about all of them.", "anchors": ["src/iocp/mod.rs update_packet, set_events, update, feed_event, begin_delete, WaitHandle callback"]}
{"id": "C52", "title": "No call panics", "statement": "No call of the library panics: none of the assertions, unwraps, index operations and `unreachable!` of the poll, kqueue and IOCP backends can fail, in whatever state the poller is, whatever other threads do at the same time and whatever the OS answers. (epoll and event ports have no such places.)", "quantifier": "all numbers of threads, all interleavings (IOCP: of single memory accesses), all answers of the OS, all iteration orders of the table of sources", "why_tests_cant": "The places are guarded by invariants of the whole library that involve several threads and the OS; a test that does not hit them says nothing.", "anchors": ["src/iocp/mod.rs:440, 445, 779, 850, 1009, 1069, 1085", "src/poll.rs:164, 192, 196, 249, 271", "src/os/kqueue.rs:156"]}
{"id": "C53", "title": "kqueue: signals, processes and timers are reported as documented", "statement": "An event of a Signal, Process or Timer filter is readable and not writable and carries a key given in a call that registered that filter. A Signal is one-shot whatever PollMode is specified (documentation of Signal): after it was reported it is not reported again until it is registered again.", "quantifier": "all filters, all histories of calls and conditions with any number of threads, both kinds of kernels (that keep or replace the mode of a watched filter)", "why_tests_cant": "The mode matters only when a second signal arrives, and differs between kernels.", "anchors": ["src/os/kqueue.rs PollerKqueueExt, Signal, Process, Timer", "src/kqueue.rs mode_to_flags"]}
{"id": "C54", "title": "One contract for all backends", "statement": "For a program that uses only the portable interface, whatever the backend: every event that wait returns carries a key that was given in an add or modify call which did not fail and which was not out of date when the wait began (out of date: another add, modify or delete for the same source began after it had returned, and succeeded). So no event is made up, comes after its source was deleted, or carries an old key. And if only one-shot modes are used, wait returns readable events with a key at most as often as the key was given.", "quantifier": "all programs with any number of threads, all interleavings, all answers of the OS within its contract; epoll, event ports, poll, kqueue and IOCP", "why_tests_cant": "The contract concerns calls of other threads that overlap the wait; a test sees one schedule on one platform.", "anchors": ["src/lib.rs Poller::add, modify, delete, wait", "src/epoll.rs", "src/kqueue.rs", "src/port.rs", "src/poll.rs", "src/iocp/mod.rs"]}
{"id": "C55", "title": "Edge-triggered events are reported once per change, and never lost", "statement": "On the backends that support edge-triggered modes (epoll, kqueue), a source registered with Edge or EdgeOneshot is reported only if something happened to it since it was last reported: it was registered or modified, or its file signalled a condition that its registration watches. Conversely, if something happened and a watched condition holds, the source is in the next batch a wait takes, unless others fill the buffer; then it stays due and fewer batches than there are other sources pass before it is reported. No wait sleeps on it.", "quantifier": "all histories with any number of threads, sources, modes, buffer sizes and OS errors", "why_tests_cant": "A lost edge shows only as a wait that hangs under one particular interleaving of data arriving, registration calls and batches smaller than the set of ready sources; tests cannot enumerate those.", "anchors": ["src/lib.rs PollMode::Edge, PollMode::EdgeOneshot", "src/epoll.rs:104-141 add, modify", "src/epoll.rs:159-229 wait", "src/epoll.rs:279-305 epoll_flags, read_flags, write_flags", "src/kqueue.rs:95-140 modify", "src/kqueue.rs:386-395 mode_to_flags"]}
{"id": "C56", "title": "Windows: the socket of the base provider is watched, never another", "statement": "When a socket that was opened through layered service providers is added, the poller watches the socket of the base provider below it: if add finds a socket to watch, it is that one, provided the layers do not lie. It is found if the layer of the socket answers the query for the base socket, or refuses it but names the socket below, whose layer answers. At most three queries are made and none twice; if the search fails, add fails with an error of the OS, or InvalidInput if the layer names the socket itself.", "quantifier": "all sockets, all stacks of layers, all answers of the OS", "why_tests_cant": "Layered providers that do not answer are rare third-party software; a wrong handle shows as a wait that never wakes up.", "anchors": ["src/iocp/afd.rs:650-697 base_socket, try_socket_ioctl", "src/iocp/mod.rs:199 Poller::add"]}
{"id": "C57", "title": "Windows: system functions are loaded once, and who has a poller has them", "statement": "The functions of ntdll are looked up at most once per process, whichever threads call Poller::new first; they are never read before they were written, no thread is blocked for ever, and all threads see the same result: success exactly if the OS granted every request, otherwise the kind of the first error. So no operation with an existing poller fails for lack of these functions; but a failure is kept, and every later Poller::new of the process fails.", "quantifier": "all numbers of threads, all interleavings, all answers of the OS", "why_tests_cant": "Initialisation happens once per process, so a test sees one race at most, and the lookup does not fail on a working system.", "anchors": ["src/iocp/afd.rs:173-315 NtdllImports", "src/iocp/afd.rs:535-568 OnceCell", "src/iocp/mod.rs:121-137 Poller::new"]}
{"id": "C58", "title": "A program that asked for an event gets it", "statement": "If a program's latest call for a source was a successful add or modify in level or one-shot mode, which did not overlap with other calls for that source, and in one-shot mode no wait has returned an event with the key, or failed, since that call began, then as long as a condition it asked for holds (on backends that report them unasked: also an error or a hang-up) no wait sleeps: a wait that has reached the OS is let go at once and returns events, with an event that carries the key the program gave among them unless the buffer is full.", "quantifier": "all histories of calls of all threads, all results of OS calls, every interest, level and one-shot mode, every ready condition", "why_tests_cant": "A lost event shows as a wait that hangs after one particular history of registration calls, deliveries and failures; tests try a few histories.", "anchors": ["src/lib.rs:548-764 Poller::add_with_mode, modify_with_mode, wait", "src/epoll.rs:104-229 add, modify, delete, wait", "src/kqueue.rs:87-252 add, modify, delete, wait", "src/port.rs:50-134 add, modify, delete, wait", "src/poll.rs:102-300 add, modify, delete, wait", "src/iocp/mod.rs:172-492 add, modify, delete, wait"]}
{"id": "C59", "title": "A timeout ends the wait", "statement": "A wait(Some(t)) returns, with whatever result, no later than t after it began, plus less than one millisecond where the OS call takes milliseconds, plus the time that the calls themselves take; interruptions by signals, notifications that are already consumed and spurious wake-ups do not prolong it. In particular an OS call entered with a timeout can return once that time has passed.", "quantifier": "every Duration, every number of interruptions and rounds, every behaviour of an OS that does not sleep longer than it was asked to, all backends, all histories of calls of other threads", "why_tests_cant": "A wait that restarts its full timeout after an interruption, or whose timer is not set again after another wait, is late only in particular histories; very long timeouts cannot be waited for in a test.", "anchors": ["src/lib.rs:731-764 Poller::wait", "src/epoll.rs:159-229 wait", "src/kqueue.rs:229-252 wait", "src/port.rs:107-134 wait", "src/poll.rs:205-300 wait", "src/iocp/mod.rs:422-492 wait", "src/iocp/mod.rs:1321-1341 dur2timeout"]}
{"id": "C60", "title": "Results of concurrent registration calls are linearizable", "statement": "When add, modify and delete calls of several threads overlap in time, their results are those of some order of the calls that agrees with real time: each call has the result it would have if the calls were made one after the other, and the sources registered at the end are those this order leaves. In particular, of several adds of one source at the same time exactly one succeeds, and once every call has returned, the successful adds of a source are as many as the successful deletes, plus one if it is registered.", "quantifier": "all numbers of threads, all interleavings of their steps with waits and notifies, all sources and arguments, every choice of the OS; poll, kqueue (also the filters of os/kqueue.rs) and IOCP (sockets and waitable handles), where a call takes several steps", "why_tests_cant": "The windows between the steps of a call are a few instructions wide and the number of interleavings grows exponentially; a test sees one schedule and cannot check all orders that could explain it.", "anchors": ["src/kqueue.rs:87-140 add, modify", "src/kqueue.rs:177-226 add_source, has_source, remove_source, delete", "src/poll.rs:102-202 add, modify, delete", "src/poll.rs:319-339 modify_fds", "src/iocp/mod.rs:172-301 add, modify, delete", "src/iocp/mod.rs:304-419 add_waitable, modify_waitable, remove_waitable"]}
{"id": "C61", "title": "Every supported platform gets its documented backend, and compiles", "statement": "On every target the crate uses exactly the backend that its documentation names for that platform (epoll on Linux, Android and RedoxOS; kqueue on the systems of Apple and the BSDs; event ports on illumos and Solaris; IOCP on Windows; poll on VxWorks, Fuchsia, HermitOS and all other Unix systems), and is refused at compile time on every other target. The extension modules os::kqueue and os::iocp exist exactly on the platforms of those backends; Poller implements AsFd exactly with epoll, kqueue and event ports, and AsHandle exactly with IOCP. On every supported target each item that is used (backend, notifier, system call shim, source traits, dependencies) is defined exactly once.", "quantifier": "all targets: every name of an operating system and vendor, whether Unix or Windows, with the facts about rustc targets stated in the specification", "why_tests_cant": "A test run covers the one target it is compiled for; the lists of operating systems are repeated in several cfg conditions in lib.rs, os.rs, kqueue.rs, poll.rs and Cargo.toml, and most of the targets are never built by CI.", "anchors": ["src/lib.rs:3-9 documentation", "src/lib.rs:77-119 sys", "src/lib.rs:962-1096 raw_fd_impl, raw_handle_impl, AsRawSource, AsSource", "src/os.rs:3-16", "src/poll.rs:455-467 syscall", "src/poll.rs:630-631 notify", "src/poll.rs:739-740 notify", "src/kqueue.rs:397-402 notify", "src/kqueue.rs:477-482 notify", "Cargo.toml:23-52 dependencies"]}
{"id": "C62", "title": "A source delivers only what it was asked for, and nothing if it was asked for nothing", "statement": "An event returned by wait() is readable only if the interest in force (that of the latest successful add or modify of its source) asked for readability or urgent data, and writable only if it asked for writability. In particular, after modify(source, Event::none(key)) has returned Ok, no event of the source is returned until it is added or modified again, even if the source is ready and even if it has an error.", "quantifier": "all histories of registration calls, waits, readiness changes and failures, any interleaving of threads, all interests built with the methods of Event, all modes", "why_tests_cant": "A test would have to wait for the absence of an event, for every combination of interest, mode, OS condition and interleaving; the exceptions show only for sources that fail or hang up while they are disabled.", "anchors": ["src/lib.rs:153-160 PollMode::Level", "src/lib.rs:222-225 Event::none", "src/lib.rs:622-636 modify", "src/epoll.rs:279-305 epoll_flags, read_flags, write_flags", "src/epoll.rs:323-332 Events::iter", "src/poll.rs:265-281 wait_deadline", "src/poll.rs:343-353 poll_events", "src/port.rs:56-75 modify", "src/port.rs:191-201 Events::iter", "src/kqueue.rs:95-140 modify", "src/kqueue.rs:307-327 Events::iter", "src/iocp/mod.rs:788-824 set_events", "src/iocp/mod.rs:940-1053 feed_event"]}
{"id": "C63", "title": "Windows: the handles of the AFD helpers are opened and closed in balance", "statement": "The poller closes only handles that it has opened itself and not closed since, never a handle of the rest of the process that has got the number of a closed one. The helper of every registered socket has an open handle of its own that was joined to the completion port of the poller and told not to be signalled. Apart from calls and destructors in progress, every handle the poller has open belongs to a helper that some socket uses, whichever system calls failed before; what is in progress can always go on to its end.", "quantifier": "all interleavings of add calls, drops of packets and the rest of the process opening and closing handles, all results of NtCreateFile, CreateIoCompletionPort and SetFileCompletionNotificationModes, all numbers the system gives to handles", "why_tests_cant": "Leaks and double closes depend on system calls failing between two others and on the system reusing handle numbers at the wrong moment.", "anchors": ["src/iocp/mod.rs:548-594 afd_handle", "src/iocp/afd.rs:342-348 Drop for Afd", "src/iocp/afd.rs:360-436 Afd::new", "src/iocp/port.rs:170-196 register"]}
{"id": "C64", "title": "kqueue: process and timer filters report what they were asked to watch", "statement": "An event of a process filter is only reported if, since the filter was registered (and since its last edge-triggered event), the process did the operation asked for at that moment; when it does, the next kevent call of a wait with room reports it; other operations have no effect. An event of a timer is only reported when its duration has passed since it was added or last modified, and the n-th event only after n durations; a timer whose time is over can fire, and when it fires the next kevent call with room reports it.", "quantifier": "all interleavings of filter calls, waits, notifications, operations of processes and passing time, any number of threads, all failures of kevent, all durations, operations, modes and keys; kernels whose timers are edge-triggered (EV_CLEAR) and, for the time since the last modification, that drop an expiry not yet reported when the timer is modified", "why_tests_cant": "Processes act and time passes between any two steps of a registration call or a wait; tests see a few schedules, and cannot tell an early event from a late one of an older registration.", "anchors": ["src/os/kqueue.rs:98-124 add_filter, modify_filter, delete_filter", "src/os/kqueue.rs:172-255 Process, ProcessOps", "src/os/kqueue.rs:257-287 Timer", "src/kqueue.rs:143-173 submit_changes", "src/kqueue.rs:229-252 wait"]}
{"id": "C65", "title": "The kernel and the library read each other's AFD requests correctly, byte by byte", "statement": "When the Windows kernel looks at the request of a registered socket, at the address and of the size it was told and with its own byte offsets, it finds the socket and the events asked for last, without time limit and not exclusive; when the library takes a completed request from the port, it reads the number of sockets, the events and the status that the kernel stored. Neither side changes a byte that is not its own: the kernel never touches the `in_use` flag or the rest of the packet, no request disturbs another one, and all addresses lie within the packet and are aligned. A packet is not handed to the kernel again before it was taken back. The attributes with which the AFD device is opened have the size that the kernel expects and name the device.", "quantifier": "all memory contents, all packet addresses, all layouts of the Rust enum in the packet, 32- and 64-bit Windows, all sockets and event masks, any number of packets polled, completed and taken in any order", "why_tests_cant": "A wrong offset, size or overlap may go unnoticed where padding or zeroed memory happens to be; the layout of the packet depends on compiler and target, and tests run on one of them.", "anchors": ["src/iocp/afd.rs:30-110 AfdPollInfo, AfdPollHandleInfo, AfdPollMask", "src/iocp/afd.rs:439-517 poll, cancel", "src/iocp/afd.rs:570-647 IoStatusBlock", "src/iocp/port.rs:88-106, 274-292 CompletionHandle, OverlappedEntry", "src/iocp/mod.rs:981-1003 feed_event", "src/iocp/afd.rs:369-402 Afd::new"]}
{"id": "C66", "title": "A wait with nothing to report sleeps", "statement": "`wait` does not burn CPU time: it asks the operating system again about a source only for a reason that the user can see. On Windows, a socket is looked at once for its registration, and again only after a `wait` found an event of it or its registration was modified. With poll(2), `poll()` is called once for every `wait`, and again only because it failed (was interrupted), or because a registration call or a `notify` was made. In particular a `wait` without a timeout, on sources that have nothing to report, does not run in a loop.", "quantifier": "all interleavings of waits, registration calls and notifications of any number of threads, all answers of the OS (for Windows: operations end because of a condition or a cancellation), all interests and modes", "why_tests_cant": "A test sees the same result from a sleeping and from a spinning wait; the condition that makes it spin (an aborted connection on a source without interest) is not one that tests set up, and every number of rounds is possible.", "anchors": ["src/iocp/mod.rs:434-492 wait", "src/iocp/mod.rs:788-817 set_events", "src/iocp/mod.rs:880-933 update", "src/iocp/mod.rs:980-1053 feed_event", "src/iocp/mod.rs:1267-1318 event_to_afd_mask, afd_mask_to_event", "src/poll.rs:205-300 wait", "src/poll.rs:302-339 notify, modify_fds"]}
{"id": "C67", "title": "A wait without a timeout comes back empty-handed only because of notify", "statement": "A program that calls `wait(&mut events, None)` from one thread at a time and gets `Ok(0)` may conclude that somebody called `notify`: at every moment of every execution, no more of these calls have returned `Ok(0)` than calls of `notify` were begun (calls that return at once because another thread is waiting do not count). So a stale timer of an earlier `wait`, an event of the poller's own descriptors, a signal that interrupts the system call, a source without an event, or a registration by another thread never ends a `wait` without a timeout, and no notification is counted twice. With a timeout the same holds of the calls that come back with nothing before their time is over.", "quantifier": "all interleavings of waits, with and without timeout, registration calls and notifications of any number of threads, all conditions of the sources at all times, all errors of system calls, at every moment", "why_tests_cant": "A spurious return shows up only in a race between notify, a registration call and the step of wait that clears the notification, or after a left-over expiry of a timer; a program that treats it as a wake-up does not notice.", "anchors": ["src/lib.rs:731-763 wait", "src/lib.rs:788-800 notify", "src/epoll.rs:159-229 wait", "src/epoll.rs:472-497 notify, clear", "src/kqueue.rs:229-259 wait, notify", "src/kqueue.rs:402-561 notify", "src/port.rs:107-151 wait, notify", "src/poll.rs:205-312 wait, notify", "src/iocp/mod.rs:420-500 wait, notify"]}
{"id": "C68", "title": "A poller can be watched by another event loop", "statement": "The descriptor that a `Poller` gives out (`AsRawFd`, `AsFd`) is readable exactly when a `wait` has something to return. While it is not readable, a `wait` without a timeout would sleep and a `wait` with timeout zero returns nothing. When it is readable, a `wait` with any timeout returns at once, with an event; without one only because of a `notify`. When a source has a condition that the program asked for and still waits for, or a `notify` has returned and no `wait` has ended since, the descriptor is readable (at the latest when a `notify` still running in another thread has made its system call).", "quantifier": "all interleavings of registration calls, waits of all timeouts, notifications, passing time and changes of the sources that lead to a state in which no wait is running, all interests and modes, all buffer sizes above zero", "why_tests_cant": "Whether the descriptor is readable depends on everything that was done before: on timers and notifications left behind by earlier waits, on entries armed or disarmed by earlier events; and a false alarm or a missed one comes long after its cause.", "anchors": ["src/lib.rs:993-1007 AsRawFd, AsFd", "src/epoll.rs:159-229 wait", "src/epoll.rs:245-255 AsRawFd, AsFd", "src/kqueue.rs:211-259 wait, notify", "src/kqueue.rs:267-277 AsRawFd, AsFd", "src/port.rs:107-151 wait, notify", "src/port.rs:153-163 AsRawFd, AsFd"]}
{"id": "C69", "title": "notify never waits for another thread", "statement": "`notify` can be called at any moment by any thread that is not inside another call of the poller: while other threads sleep in `wait`, while they add, modify or delete, or notify themselves, whatever locks they hold and even if they never run again. It returns after at most a fixed number of its own steps (three system or atomic operations after the first one), and each of them can be made at once: none of them waits for something another thread has to do, and the pipe or eventfd it writes to has room. The same holds on platforms where the pipe is read with blocking reads.", "quantifier": "all states of the poller (epoll: all reachable states), all continuations by any number of other threads and by the system, all numbers of threads", "why_tests_cant": "A lock or a blocking write on the way of notify matters only if another thread holds the lock, or has not emptied the pipe, at that very moment; then the program hangs, since notify is what would have woken the other thread. Tests do not reach all such moments, and cannot stop a thread between two of its atomic operations.", "anchors": ["src/lib.rs:788-800 Poller::notify", "src/epoll.rs:232-242 notify", "src/epoll.rs:472-484 Notifier::notify", "src/kqueue.rs:255-259 notify", "src/kqueue.rs:441-455, 543-547 notify", "src/poll.rs:303-313 notify", "src/poll.rs:694-698, 803-809 notify", "src/port.rs:137-150 notify", "src/iocp/mod.rs:495-499 notify"]}
{"id": "C70", "title": "Registration calls do not wait for a wait in progress", "statement": "`add`, `modify` and `delete` (and the calls of the extensions) can be called at any moment by any thread that is not inside another call, while other threads sleep in `wait`, register or notify. They return after at most a fixed number of their own steps, and each of these can be made at once: the other threads need not do anything for it, and may never run again.", "quantifier": "all states of the poller, all calls and threads, all continuations by any number of other threads and by the system", "why_tests_cant": "That a call waits for another thread shows only when that thread happens to be at the one place that keeps it waiting; a call that goes round in a loop as long as others are faster needs a schedule that no test produces.", "anchors": ["src/lib.rs:548-699 add, modify, delete", "src/epoll.rs:99-157 add, modify, delete", "src/kqueue.rs:87-226 add, modify, delete, submit_changes", "src/port.rs:50-104 add, modify, delete", "src/iocp/mod.rs:172-419 add, modify, delete", "src/iocp/mod.rs:506-542 update_packet, drain_update_queue", "src/poll.rs:319-344 modify_fds"]}
{"id": "C71", "title": "A wait that the system has answered comes back, whatever other threads do", "statement": "Once the system call in which a wait sleeps has reported events of sources, or its timeout is over, the wait returns exactly the reported events after a bounded number of its own steps, none of which has to wait for another thread: neither notifications, however many, nor registration calls, nor changes of the sources in between delay it or change its result. The one exception is an error of the call that re-arms the notifier (epoll, kqueue): it becomes the result, except that an interruption makes the wait start again. (epoll with eventfd or pipe, kqueue with EVFILT_USER or a pair of sockets, event ports, poll)", "quantifier": "every reachable state in which a thread sleeps in wait, every interleaving of the steps of any number of other threads and of the system after that", "why_tests_cant": "The notification channel is emptied in a loop while other threads may write to it; that the loop ends needs an argument about all interleavings.", "anchors": ["src/epoll.rs Poller::wait", "src/epoll.rs notify::Notify::clear", "src/kqueue.rs Poller::wait", "src/kqueue.rs notify::Notify::clear", "src/port.rs Poller::wait", "src/lib.rs Poller::wait", "src/poll.rs Poller::wait", "src/poll.rs notify::Notify::pop_all_notifications"]}
{"id": "C72", "title": "On Windows an answered wait comes back whatever other threads do", "statement": "On the IOCP backend, once the completion port has handed the thread in wait a notification, a posted packet or a signalled handle, the wait returns (with events, without any for a mere notification, or with the error of a call that re-registers a source) after a number of its own steps that depends only on the number of completions it was handed; none of these steps has to wait for another thread, and neither registration calls nor notifications nor changes of the sources delay it.", "quantifier": "every reachable state in which a thread sleeps in the port with such a completion among those the call takes, every continuation by any number of threads, every failure of a system call", "why_tests_cant": "The delay comes from the queue of updates that registration calls of other threads fill while the completions are processed; a test sees a few interleavings and never a queue of 1024 entries being refilled at the right moments.", "anchors": ["src/iocp/mod.rs Poller::wait", "src/iocp/mod.rs Poller::update_packet", "src/iocp/mod.rs Poller::drain_update_queue", "src/iocp/mod.rs feed_event"]}
